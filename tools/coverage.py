"""Which functions of /repo are cited by the model: for every function, the definitions of lean/Verif/Model that cite its lines."""
import ast, glob, os, re, sys, collections
ROOT = os.path.join(os.path.dirname(os.path.abspath(__file__)), "..")
REPO = "/repo/"

def functions():
    out = []
    for f in sorted(glob.glob(REPO + "src/corrct/**/*.py", recursive=True)):
        rel = f[len(REPO):]
        tree = ast.parse(open(f).read())
        def rec(node, pre):
            for c in getattr(node, "body", []):
                if isinstance(c, (ast.FunctionDef, ast.ClassDef)):
                    name = pre + c.name
                    if isinstance(c, ast.FunctionDef):
                        out.append((rel, name, min([c.lineno] + [d.lineno for d in c.decorator_list]), c.end_lineno))
                    rec(c, name + ".")
        rec(tree, "")
    return out

def citations():
    cites = collections.defaultdict(list)   # file -> [(lo, hi, def)]
    for f in sorted(glob.glob(ROOT + "/lean/Verif/Model/*.lean")):
        text = open(f).read()
        mod = os.path.basename(f)[:-5]
        for m in re.finditer(r"/--((?:(?!-/).)*)-/\s*(?:@\[[^\]]*\]\s*)*(?:noncomputable |private |protected )*(?:def|structure|inductive|abbrev|class)\s+([\w.«»']+)", text, re.S):
            doc, name = m.group(1), m.group(2)
            cur = None
            for t in re.finditer(r"(src/corrct/[\w/]+\.py)|([:,] ?)(\d+)(?:[-–](\d+))?", doc):
                if t.group(1):
                    cur = t.group(1); exp = True
                elif cur:
                    lo = int(t.group(3)); hi = int(t.group(4) or lo)
                    cites[cur].append((lo, hi, f"{mod}.{name}"))
    return cites

def table():
    fs, cs = functions(), citations()
    res = []
    for rel, name, lo, hi in fs:
        ds = []
        for a, b, d in cs.get(rel, []):
            if a <= hi and b >= lo and d not in ds:
                ds.append(d)
        res.append((rel, name, lo, hi, ds))
    return res

if __name__ == "__main__":
    t = table()
    cov = sum(1 for r in t if r[4]); print(cov, "of", len(t))
    for r in t:
        if not r[4] and (len(sys.argv) < 2 or sys.argv[1] in r[0]):
            print(r[0][len("src/corrct/"):], r[1], r[2], r[3])
