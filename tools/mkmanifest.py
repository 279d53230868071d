"""Collect the property theorems (Verif.Cnn_…) from lean/Verif/Props and write MANIFEST.json and lean/Verif.lean."""
import re, glob, json, os
os.chdir(os.path.join(os.path.dirname(__file__), ".."))
props = [json.loads(l) for l in open("properties.jsonl") if l.strip()]
notes = json.load(open("tools/notes.json")) if os.path.exists("tools/notes.json") else {}
thms = {}
docs = {}
where = {}
DOC = re.compile(r"/--((?:(?!-/).)*)-/\s*(?:omit [^\n]* in\s+|open [^\n]* in\s+|set_option [^\n]* in\s+|include [^\n]* in\s+|@\[[^\]]*\]\s*)*$", re.S)
files = sorted(glob.glob("lean/Verif/**/*.lean", recursive=True))
for f in files:
    if "/Props/" not in f:
        continue
    text = open(f).read()
    for m in re.finditer(r"^theorem (C\d+_\w+)", text, re.M):
        ns = []
        for q in re.finditer(r"^(namespace|end) ([\w.]+)", text[:m.start()], re.M):
            if q.group(1) == "namespace": ns.append(q.group(2))
            elif ns and ns[-1] == q.group(2): ns.pop()
        thms.setdefault(m.group(1).split("_")[0], []).append(".".join(ns) + "." + m.group(1))
        d = DOC.search(text[max(0, m.start() - 3000):m.start()])
        d = " ".join(d.group(1).split()) if d else ""
        docs[m.group(1)] = re.sub(r"^\*{0,2}C\d+[^.:]{0,40}[.:]\*{0,2} *", "", d) or d
        where[m.group(1)] = f[len("lean/Verif/"):]
claims = []
for p in props:
    i = p["id"]
    t = thms.get(i, [])
    n = notes.get(i, {})
    status = n.get("status") or ("partial" if (not t or any(x.endswith(("_partial", "_violated")) for x in t)) else "proved")
    if "note" not in n and status == "partial":
        n = dict(n, note=" | ".join(f"{x.split('.')[-1]}: {docs[x.split('.')[-1]]}" for x in t if x.endswith(("_partial", "_violated"))))
    claims.append({"property": i, "status": status, "theorems": t, "note": n.get("note", "" if t else "not yet proved")})
json.dump({"claims": claims}, open("MANIFEST.json", "w"), indent=1, ensure_ascii=False)
mods = [f[len("lean/"):-5].replace("/", ".") for f in files]
open("lean/Verif.lean", "w").write("".join(f"import {m}\n" for m in mods))
extra = set(thms) - {p["id"] for p in props}
print("claims", len(claims), "proved", sum(c["status"] == "proved" for c in claims), "theorems", sum(map(len, thms.values())), "unlisted", extra)
print("without theorems:", [c["property"] for c in claims if not c["theorems"]])
