#!/usr/bin/env python3
"""Writes /verif/MANIFEST.json."""
import json
C = []
def M(p, status, theorems, note=""):
    C.append(dict(property=p, status=status, theorems=theorems.split(), note=note))
M("C01","proved","SBayes.Heap.C01_copies_are_independent_values SBayes.Heap.C01_no_interference")
M("C02","partial","SBayes.Heap.C02_group_counters_independent_partial SBayes.Heap.C02_false",
  "False in general (C02_false): set_value on a grouped copy leaves the counters aliased. Partial: histories without set_value on grouped parameters.")
M("C03","proved","SBayes.Heap.C03_version_counts_completed_mutations SBayes.Heap.C03_equal_version_equal_value SBayes.Heap.C03_aborted_edit_changes_value_silently")
M("C49","proved","SBayes.Heap.C49_values_are_write_protected")
import os
exec(open(os.path.join(os.path.dirname(__file__),'manifest_more.py')).read()) if os.path.exists(os.path.join(os.path.dirname(__file__),'manifest_more.py')) else None
json.dump({"claims": C}, open('/verif/MANIFEST.json','w'), indent=1)
