"""Writes MANIFEST.json from the table below."""
import json
C = []
def c(pid, status, theorems, note=""):
    C.append({"property": pid, "status": status, "theorems": ["Verif." + t for t in theorems], "note": note})
exec(open(__file__.replace("manifest.py", "claims.py")).read())
json.dump({"claims": C}, open(__file__.replace("tools/manifest.py", "MANIFEST.json"), "w"), indent=1)
