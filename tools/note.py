#!/usr/bin/env python3
"""Set the manifest note of a property: note.py Cnn status "text"."""
import json
import pathlib
import sys

path = pathlib.Path(__file__).parent / "notes.json"
notes = json.loads(path.read_text())
entry = {}
if sys.argv[2] != "proved":
    entry["status"] = sys.argv[2]
entry["note"] = sys.argv[3]
notes[sys.argv[1]] = entry
lines = [f"{json.dumps(k)}: {json.dumps(notes[k])}" for k in sorted(notes)]
path.write_text("{\n" + ",\n".join(lines) + "\n}\n")
