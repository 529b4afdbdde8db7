#!/usr/bin/env python3
"""Write MANIFEST.json. One entry per property: (status, theorems, note)."""
import json, os
C = {}
def c(pid, status, theorems, note=""):
    C[pid] = {"property": pid, "status": status, "theorems": theorems, "note": note}

exec(open(os.path.join(os.path.dirname(__file__), "claims.py"), encoding="utf-8").read())

root = os.path.dirname(os.path.dirname(os.path.abspath(__file__)))
ids = [json.loads(l)["id"] for l in open(os.path.join(root, "properties.jsonl"), encoding="utf-8")]
out = {"claims": [C[i] for i in ids if i in C]}
json.dump(out, open(os.path.join(root, "MANIFEST.json"), "w", encoding="utf-8"), indent=1, ensure_ascii=False)
print("claims:", len(out["claims"]), "missing:", [i for i in ids if i not in C])
