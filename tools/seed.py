#!/usr/bin/env python3
"""Seeded-bug tests: apply each edit of a spec file to a scratch copy, rebuild, log what fails.

usage: seed.py spec.json   (list of {"file","old","new","definition","edit","claim","tightened"?})
"""
import json, os, re, subprocess, sys

SCRATCH = "/tmp/scratch"
LOG = "/verif/seeded/LOG.jsonl"

def theorem_at(path, line):
    name = "?"
    doc = False
    with open(path) as fd:
        for n, text in enumerate(fd, 1):
            m = re.match(r"(?:private |protected |@\[[^\]]*\] ?)*(theorem|lemma|def|example|instance|abbrev|structure|inductive)\b\s*([^\s:({\[]*)", text)
            if m:
                name = m.group(2) if m.group(1) != "example" else f"example@{os.path.basename(path)}"
                if m.group(1) == "def":
                    name = "def " + name
            # An error at a doc comment belongs to the declaration after it.
            if n == line and text.startswith("/--"):
                doc = True
            if n >= line and (not doc or m):
                return name
    return name

def main():
    subprocess.run(["rm", "-rf", SCRATCH], check=True)
    subprocess.run(["cp", "-a", "/verif/lean", SCRATCH], check=True)
    log = "--dry" not in sys.argv
    for item in json.load(open(sys.argv[1])):
        path = f"{SCRATCH}/Verif/{item['file']}"
        orig = open(path).read()
        count = orig.count(item["old"])
        if count != 1:
            print("BAD EDIT", count, item["definition"], item["edit"]); continue
        open(path, "w").write(orig.replace(item["old"], item["new"]))
        out = subprocess.run(["lake", "build"], cwd=SCRATCH, capture_output=True, text=True)
        text = out.stdout + out.stderr
        failed = []
        for m in re.finditer(r"^error: (Verif/[^:\n]*\.lean):(\d+):", text, re.M):
            name = theorem_at(f"{SCRATCH}/{m.group(1)}", int(m.group(2)))
            if name not in failed:
                failed.append(name)
        open(path, "w").write(orig)
        # An edit that does not elaborate tests no theorem.
        if any(name.startswith("def ") for name in failed):
            print("ILL-TYPED", item["definition"], "|", item["edit"], "|", failed[:4]); continue
        mods = sorted(set(re.findall(r"^- (Verif\S*)", text, re.M)))
        entry = {"definition": item["definition"], "file": "lean/Verif/" + item["file"], "edit": item["edit"],
                 "claim": item["claim"], "failed": failed, "failed_modules": mods,
                 "tightened": item.get("tightened", [])}
        if item.get("note"): entry["note"] = item["note"]
        print(("SURVIVED " if out.returncode == 0 else "killed   "), item["definition"], "|", item["edit"], "|", failed[:8])
        sys.stdout.flush()
        if log:
            with open(LOG, "a") as fd:
                fd.write(json.dumps(entry, ensure_ascii=False) + "\n")

main()
