"""Write DESIGN.md."""
import json, os, sys, collections
os.chdir(os.path.join(os.path.dirname(os.path.abspath(__file__)), ".."))
sys.path.insert(0, "tools")
import mkmanifest as M, coverage as C
plan = json.load(open("tools/plan.json"))
out = [open("tools/design_head.md").read()]
man = {c["property"]: c for c in json.load(open("MANIFEST.json"))["claims"]}
ax = json.load(open("tools/axioms.json")) if os.path.exists("tools/axioms.json") else {}

out.append("## 5. What of the code is modelled\n\n"
  "A function is listed as modelled if a definition of `lean/Verif/Model` cites its lines (the comment of the definition says what is\n"
  "left out of it). What is not listed as modelled is not covered by any theorem.\n")
bad = json.load(open("tools/notmodelled.json")) if os.path.exists("tools/notmodelled.json") else {}
byfile = collections.OrderedDict()
for rel, name, lo, hi, ds in C.table():
    byfile.setdefault(rel, []).append((name, lo, hi, ds))
for rel, fs in byfile.items():
    yes = [(n, d) for n, lo, hi, d in fs if d]
    no = [n for n, lo, hi, d in fs if not d]
    out.append(f"### {rel} ({len(yes)} of {len(fs)} functions)\n")
    if yes:
        out.append("Modelled: " + "; ".join(f"`{n}` ({', '.join(d[:4])}{', …' if len(d) > 4 else ''})" for n, d in yes) + ".\n")
    if no:
        seen = []
        for n in no:
            if n not in seen: seen.append(n)
        out.append("Not modelled: " + ", ".join(f"`{n}`" for n in seen) + "." + (" " + bad[rel] if rel in bad else "") + "\n")

out.append("## 6. The properties\n\nFor each property: the plan, and what is proved. `proved` means that the theorems together give the statement\n"
  "in `properties.jsonl` for the model; `partial` means that the code violates a part of it (`_violated`) or that a part is missing (`_partial`).\n")
for p in M.props:
    c = man[p["id"]]
    out.append(f"### {p['id']} {p['title']} — {c['status']}\n")
    if p["id"] in plan:
        out.append("*Plan.* " + plan[p["id"]] + "\n")
    for t in c["theorems"]:
        n = t.split('.')[-1]
        out.append(f"* `{t}` (`{M.where[n]}`): {M.docs[n]}")
    out.append("")
out.append("## 7. Axioms\n")
g = collections.defaultdict(list)
for t, a in ax.items():
    g[tuple(a)].append(t)
for a, ts in sorted(g.items(), key=lambda x: -len(x[1])):
    out.append(f"* {', '.join('`'+x+'`' for x in a) or 'no axioms'}: " + (f"the {len(ts)} theorems of the manifest not listed below." if len(ts) == max(map(len, g.values())) else ", ".join(f"`{t}`" for t in sorted(ts)) + "."))
open("DESIGN.md", "w").write("\n".join(out) + "\n")
print(len(out))
