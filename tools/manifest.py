"""Regenerate MANIFEST.json from the theorem names in lean/Verif/Props and the notes in tools/notes.json."""
import glob, json, os, re

ROOT = os.path.dirname(os.path.dirname(os.path.abspath(__file__)))
thms = {}
for f in sorted(glob.glob(ROOT + "/lean/Verif/Props/*.lean")):
    ns = []
    for line in open(f):
        if m := re.match(r"namespace (\S+)", line):
            ns.append(m.group(1))
        elif (m := re.match(r"end (\S+)", line)) and ns and ns[-1] == m.group(1):
            ns.pop()
        elif m := re.match(r"theorem (C\d\d+)_([\w'₀-₉]+)", line):
            thms.setdefault(m.group(1), []).append(".".join(ns) + f".{m.group(1)}_{m.group(2)}")
notes = json.load(open(ROOT + "/tools/notes.json"))
claims = []
for line in open(ROOT + "/properties.jsonl"):
    pid = json.loads(line)["id"]
    names = thms.pop(pid, [])
    pos = [n for n in names if not n.endswith("_false") and not n.endswith("_partial")]
    n = notes.get(pid, {})
    status = n.get("status") or ("proved" if pos else "partial" if names else "not_applicable")
    note = n.get("note", "")
    if not names and not note:
        note = "Not modelled yet."
    false = [x for x in names if x.endswith("_false")]
    if false:
        note = (note + " Theorems ending in _false exhibit inputs on which a stronger reading of the claim fails.").strip()
    claims.append({"property": pid, "status": status, "theorems": names, "note": note})
assert not thms, thms
json.dump({"claims": claims}, open(ROOT + "/MANIFEST.json", "w"), indent=1, ensure_ascii=False)
print({s: sum(c["status"] == s for c in claims) for s in ("proved", "partial", "not_applicable")})
