"""Writes MANIFEST.json from the theorem names in lean/Verif/Props and the notes below."""
import re, json, glob, os
root = os.path.dirname(os.path.dirname(os.path.abspath(__file__)))
notes = json.load(open(root + '/tools/notes.json'))
thms = {}
for f in sorted(glob.glob(root + '/lean/Verif/Props/**/*.lean', recursive=True)):
    for m in re.finditer(r'^theorem (C\d+)_(\w+)', open(f).read(), re.M):
        thms.setdefault(m.group(1), []).append('Verif.Props.%s_%s' % m.groups())
claims = []
for line in open(root + '/properties.jsonl'):
    c = json.loads(line)['id']
    t = thms.get(c, [])
    n = notes.get(c, '')
    if isinstance(n, dict):
        claims.append({"property": c, "status": n["status"], "theorems": t, "note": n["note"]})
    elif t:
        st = "partial" if any('_partial' in x or '_violated' in x for x in t) else "proved"
        claims.append({"property": c, "status": st, "theorems": t, "note": n})
json.dump({"claims": claims}, open(root + '/MANIFEST.json', 'w'), indent=1)
print(len(claims), "claims", sum(len(c["theorems"]) for c in claims), "theorems;",
      "missing:", [json.loads(l)['id'] for l in open(root + '/properties.jsonl')
                   if json.loads(l)['id'] not in [c["property"] for c in claims]])
