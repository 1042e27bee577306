"""Rewrites the list of axioms at the end of DESIGN.md (run in /verif after `lake build`)."""
import json,subprocess,re,os,tempfile
M=json.load(open("MANIFEST.json"))["claims"]
ths=[t for c in M for t in c["theorems"]]; ths=list(dict.fromkeys(ths))
f=tempfile.NamedTemporaryFile("w",suffix=".lean",delete=False)
f.write("import Verif\n"+"".join(f"#print axioms {t}\n" for t in ths)); f.close()
out=subprocess.run(["lake","env","lean",f.name],cwd="lean",capture_output=True,text=True).stdout
os.unlink(f.name)
res={}
for m in re.finditer(r"'([\w.']+)' (does not depend on any axioms|depends on axioms: \[([^\]]*)\])",out):
    res[m.group(1)]=sorted(x.strip() for x in (m.group(3) or "").replace("\n"," ").split(",") if x.strip())
groups={}
for t in ths: groups.setdefault(tuple(res[t]),[]).append(t)
lines=[f"  * {', '.join('`'+x+'`' for x in k) or 'none'}: "+", ".join("`"+t.removeprefix('CE.')+"`" for t in groups[k]) for k in sorted(groups,key=len)]
d=open("DESIGN.md").read(); i=d.index("(`tools/axioms.py`):")+len("(`tools/axioms.py`):")
open("DESIGN.md","w").write(d[:i]+"\n\n"+"\n".join(lines)+"\n")
