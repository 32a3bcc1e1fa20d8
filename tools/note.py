"""note.py C31 "text": set the note of a property in notes.json."""
import json, sys
p = '/verif/tools/notes.json'
d = json.load(open(p))
for k, v in zip(sys.argv[1::2], sys.argv[2::2]):
    d.setdefault(k, {})['note'] = v
json.dump(d, open(p, 'w'), indent=0)
