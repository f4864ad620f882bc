"""Merges the results of mutation runs (out*.jsonl files given as arguments, in order) into seeded/LOG.jsonl."""
import json, sys
deps = {}
for l in open('/tmp/seedwork/deps.txt'):
    p = l.split(); deps[p[0]] = set(p[1:])
NOTES = json.load(open('/verif/tools/seednotes.json'))
out = []
for f in sys.argv[1:]:
    for l in open(f):
        d = json.loads(l)
        failed = d['failed']
        names = [x for x in failed if x not in ('?', '') and not x.startswith('example@')]
        blocked = sorted(t.split('.')[-1] for t in deps if any(any(x == n or x.endswith('.' + n) for x in deps[t]) for n in names))
        only = {'Reader.lean': ('C31', 'C35'), 'ReaderDefaults.lean': ('C31', 'C35'), 'LimitingReader.lean': ('C31', 'C35')}
        for g, ps in only.items():
            if '(' + g + ')' in d['definition']: blocked = [b for b in blocked if b.startswith(ps)]
        key = d['definition'] + ' ' + d['edit']
        note = NOTES.get(key, {})
        e = dict(definition=d['definition'], edit=d['edit'], claim=d['claim'],
                 survived=d['survived'],
                 failed=failed, theorems_failed=blocked,
                 tightened=note.get('tightened', []))
        if 'note' in note: e['note'] = note['note']
        elif d['survived']: print('survivor without note:', key)
        out.append(e)
open('/verif/seeded/LOG.jsonl', 'w').write(''.join(json.dumps(e, ensure_ascii=False) + '\n' for e in out))
print(len(out), 'entries,', sum(1 for e in out if not e['theorems_failed'] and not e['survived']), 'killed without a claimed theorem')
