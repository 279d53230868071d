"""Run `#print axioms` on every theorem of MANIFEST.json (needs a built lean/) and write tools/axioms.json."""
import json, os, re, subprocess, tempfile
os.chdir(os.path.join(os.path.dirname(os.path.abspath(__file__)), "../lean"))
ths = [t for c in json.load(open("../MANIFEST.json"))["claims"] for t in c["theorems"]]
src = "import Verif\n" + "".join(f"#print axioms {t}\n" for t in ths)
with tempfile.NamedTemporaryFile("w", suffix=".lean", delete=False) as f:
    f.write(src)
out = subprocess.run(["lake", "env", "lean", f.name], capture_output=True, text=True).stdout
res = {}
for m in re.finditer(r"'([\w.]+)' (?:depends on axioms: \[([^\]]*)\]|does not depend on any axioms)", out):
    res[m.group(1)] = sorted(x.strip() for x in (m.group(2) or "").split(",") if x.strip())
json.dump(res, open("../tools/axioms.json", "w"), indent=0)
print(len(ths), len(res), {tuple(v) for v in res.values()})
