"""Maintain MANIFEST.json and properties.jsonl.

usage: from tools.manifest import claim, prop
"""
import json, os
ROOT = os.path.dirname(os.path.dirname(os.path.abspath(__file__)))
M = os.path.join(ROOT, "MANIFEST.json")
P = os.path.join(ROOT, "properties.jsonl")


def load():
    return json.load(open(M)) if os.path.exists(M) else {"claims": []}


def claim(pid, status, theorems, note=""):
    d = load()
    d["claims"] = [c for c in d["claims"] if c["property"] != pid]
    d["claims"].append({"property": pid, "status": status, "theorems": theorems, "note": note})
    d["claims"].sort(key=lambda c: c["property"])
    json.dump(d, open(M, "w"), indent=1, ensure_ascii=False)


def prop(pid, **kw):
    rows = [json.loads(l) for l in open(P) if l.strip()]
    hit = [r for r in rows if r["id"] == pid]
    if hit:
        hit[0].update(kw)
    else:
        rows.append({"id": pid, **kw})
    rows.sort(key=lambda r: r["id"])
    with open(P, "w") as f:
        for r in rows:
            f.write(json.dumps(r, ensure_ascii=False) + "\n")
