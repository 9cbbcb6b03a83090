"""Regenerate MANIFEST.json from the theorem names in lean/Verif (Cnn_..., with suffixes _partial / _violated)."""
import json, re, glob, os
root = os.path.join(os.path.dirname(__file__), '..')
ids = [json.loads(l)['id'] for l in open(os.path.join(root, 'properties.jsonl'))]
th = {}
docs = {}  # docstring of the first theorem of each claim, used when notes.json has no note
for f in sorted(glob.glob(os.path.join(root, 'lean/Verif/**/*.lean'), recursive=True)):
    src = open(f).read()
    stack = []
    doc, indoc = '', False
    for line in src.splitlines():
        if line.startswith('/--'):
            doc, indoc = '', True
        if indoc:
            doc += line.strip() + ' '
            indoc = not line.rstrip().endswith('-/')
        m = re.match(r'namespace (\S+)\s*$', line)
        if m:
            stack.append(m.group(1))
        m = re.match(r'end (\S+)\s*$', line)
        if m and stack and stack[-1] == m.group(1):
            stack.pop()
        m = re.match(r'theorem (C(\d+)_[^\s{(\[:]+)', line)
        if m:
            th.setdefault('C' + m.group(2), []).append('.'.join(stack + [m.group(1)]))
            if doc:
                docs.setdefault('C' + m.group(2), doc)
            doc = ''
notes = json.load(open(os.path.join(root, 'tools/notes.json')))
claims = []
for i in ids:
    if i not in th:
        continue
    names = th[i]
    partial = any('_partial' in n or '_violated' in n for n in names)
    n = notes.get(i, {})
    status = n.get('status') or ('partial' if partial else 'proved')
    claims.append(dict(property=i, status=status, theorems=names, note=n.get('note') or re.sub(r'[*`]|^/--|-/\s*$', '', docs.get(i, '')).strip()))
json.dump({"claims": claims}, open(os.path.join(root, 'MANIFEST.json'), 'w'), indent=1, ensure_ascii=False)
print(len(claims), 'claims;', [c['property'] for c in claims if c['status'] == 'proved'], 'proved;',
      'missing', [i for i in ids if i not in th])
