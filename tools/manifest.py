"""Source of /verif/MANIFEST.json (run: python3 tools/manifest.py)."""
import json, re, glob, sys
sys.path.insert(0, "/verif/tools")
import props
C = {}
def c(pid, status, thms, note):
    C[pid] = dict(property=pid, status=status, theorems=["Allocative." + t for t in thms.split()], note=note)
exec(open("/verif/tools/claims.txt").read())
ids = [x["id"] for x in props.P]
src = "\n".join(open(f).read() for f in glob.glob("/verif/lean/Verif/Props/*.lean"))
names = set(re.findall(r"^theorem (\S+)", src, re.M))
claims = []
for i in ids:
    if i not in C:
        print("missing", i); continue
    for t in C[i]["theorems"]:
        if t.split(".")[-1] not in names: print("no theorem", i, t)
    claims.append(C[i])
json.dump({"claims": claims}, open("/verif/MANIFEST.json", "w"), indent=1)
