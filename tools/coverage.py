"""Which functions of /repo/sbayes are cited by no definition of the model (by file name and lines)."""
import ast,re,glob,os
cited={}
for f in glob.glob('/verif/lean/Verif/**/*.lean',recursive=True):
    s=open(f).read()
    for m in re.finditer(r'([a-z_]+\.py)[: ]+((?:\d+(?:[-–]\d+)?(?:, *)?)+)',s):
        for r in re.findall(r'(\d+)(?:[-–](\d+))?',m.group(2)):
            a=int(r[0]);b=int(r[1] or a); cited.setdefault(m.group(1),set()).update(range(a,b+1))
tot=0;cov=0
for p in sorted(glob.glob('/repo/sbayes/**/*.py',recursive=True)):
    b=os.path.basename(p); t=ast.parse(open(p).read()); c=cited.get(b,set())
    miss=[]
    def walk(n,pre=''):
        global tot,cov
        for x in ast.iter_child_nodes(n):
            if isinstance(x,ast.ClassDef): walk(x,pre+x.name+'.')
            elif isinstance(x,ast.FunctionDef):
                L=x.end_lineno-x.lineno+1; tot+=L
                k=len([i for i in range(x.lineno,x.end_lineno+1) if i in c])
                if k: cov+=L
                else: miss.append(f'{pre}{x.name}({x.lineno}-{x.end_lineno})')
    walk(t)
    if miss: print(os.path.relpath(p,'/repo/sbayes'),':',', '.join(miss))
print('lines in functions cited / all:',cov,tot)
