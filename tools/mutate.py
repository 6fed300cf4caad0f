#!/usr/bin/env python3
"""Random wrong programs: change one place of a definition that models code, and see which theorems fail.

usage: mutate.py N [seed] [file ...]   (at most N mutants per file; files relative to lean/Verif)

First the file alone is checked, then, if it still passes, everything that imports it (in a scratch copy). A mutant
in which a definition no longer compiles is dropped. Results go to /tmp/mutants.jsonl for review.
"""
import concurrent.futures as cf, glob, json, os, random, re, subprocess, sys

LEAN = "/verif/lean"
SCRATCH = "/tmp/mutscratch"
OUT = "/tmp/mutants.jsonl"
HEAD = re.compile(r"^(?:@\[[^\]]*\] ?)?(?:private |protected |noncomputable )*(theorem|lemma|def|example|instance|abbrev|structure|inductive|end|namespace|section|variable|open)\b\s*([^\s:({\[]*)")

def decls(text):
    """(start, end, kind, name, doc) of the declarations of a file; offsets of the text without its comment."""
    lines = text.split("\n")
    out, doc, docstart, i, pos = [], "", None, 0, 0
    offs = []
    for l in lines:
        offs.append(pos); pos += len(l) + 1
    while i < len(lines):
        l = lines[i]
        if l.startswith("/-"):
            j = i
            while "-/" not in lines[j]: j += 1
            doc = "\n".join(lines[i:j + 1]) if l.startswith("/--") else ""
            i = j + 1
            continue
        m = HEAD.match(l)
        if m:
            j = i + 1
            while j < len(lines) and not (HEAD.match(lines[j]) or lines[j].startswith("/-")): j += 1
            out.append((offs[i], offs[j] if j < len(lines) else len(text), m.group(1), m.group(2), doc))
            doc = ""
            i = j
            continue
        i += 1
    return out

OPS = [
    (r"(?<![<≤≥>=:-])< ", "≤ "), (r"≤ ", "< "), (r"≥ ", "> "), (r"(?<![=-])> ", "≥ "),
    (r" \+ 1\b", ""), (r" - 1\b", ""), (r" \+ ", " - "), (r" - ", " + "),
    (r"\btrue\b", "false"), (r"\bfalse\b", "true"),
    (r" && ", " || "), (r" \|\| ", " && "), (r" ∧ ", " ∨ "), (r" ∨ ", " ∧ "),
    (r"(?<=if )(?!h :|let)([^\n]*?)(?= then)", r"¬ (\1)"),
    (r"\.take ", ".drop "), (r"\.drop ", ".take "), (r"\bmin ", "max "), (r"\bmax ", "min "),
    (r"\.isSome\b", ".isNone"), (r"\.isNone\b", ".isSome"), (r"\.isEmpty", ".isEmpty.not"),
    (r"(\w+) \+\+ (\w+)", r"\2 ++ \1"), (r" ≠ ", " = "), (r"(?<=if )([^\n]*?) = ", r"\1 ≠ "),
    (r", (\w+) := [^,{}\n]*(?=[,} ])", ""), (r"(?<=with )(\w+) := [^,{}\n]*, ", ""),
    (r"\.reverse\b", ""), (r"\bsome \w+\b", "none"), (r"\.1\b", ".2"), (r"\.2\b", ".1"),
    (r"(?<![\w.])(\d+)(?![\w.])", None),
    (r"\.head\?", ".getLast?"), (r"\.getLast\?", ".head?"), (r" % ", " / "), (r" / ", " % "), (r" \* ", " + "),
    (r"\.any ", ".all "), (r"\.all ", ".any "), (r"\.filter ", ".takeWhile "), (r"\.erase ", ".append "),
]

def mutants(path):
    text = open(path).read()
    res = []
    for a, b, kind, name, doc in decls(text):
        if kind != "def" or not re.search(r"\.(py|js)\b|\d+[–-]\d+|line", doc): continue
        body = text[a:b]
        if re.search(r"\bex[A-Z]", name): continue
        k = body.find(":=")
        bar = body.find("\n  | ")
        if k < 0 and bar < 0: continue
        start = min(x for x in (k, bar) if x >= 0)
        for pat, new in OPS:
            for m in re.finditer(pat, body):
                if m.start() < start: continue
                line = body[body.rfind("\n", 0, m.start()) + 1:m.start()]
                if "--" in line: continue
                rep = str(int(m.group(1)) + 1) if new is None else m.expand(new)
                mut = body[:m.start()] + rep + body[m.end():]
                if mut == body: continue
                ls = body.rfind("\n", 0, m.start()) + 1
                le = body.find("\n", m.end()); le = len(body) if le < 0 else le
                ls2, le2 = ls, le + len(rep) - (m.end() - m.start())
                res.append({"file": os.path.relpath(path, LEAN + "/Verif"), "definition": name, "old": body[ls:le].strip(),
                            "new": mut[ls2:le2].strip(), "text": text[:a] + mut + text[b:]})
    return res

def where(text, line):
    kind, name = "?", "?"
    for n, l in enumerate(text.split("\n"), 1):
        m = HEAD.match(l)
        if m and m.group(1) not in ("end", "namespace", "section", "variable", "open"):
            kind, name = m.group(1), m.group(2)
        if n >= line: break
    return kind, name

def run(args):
    n, mu = args
    p = f"/tmp/mut/m{n}.lean"
    open(p, "w").write(mu["text"])
    try:
        r = subprocess.run(["lake", "env", "lean", p], cwd=SCRATCH, capture_output=True, text=True, timeout=300)
    except subprocess.TimeoutExpired:
        mu["status"] = "timeout"; return mu
    errs = [where(mu["text"], int(m.group(1))) for m in re.finditer(r"m\d+\.lean:(\d+):\d+: error", r.stdout)]
    os.remove(p)
    if any(k not in ("theorem", "lemma", "example") for k, _ in errs): mu["status"] = "invalid"
    elif errs: mu["status"] = "killed"
    elif r.returncode != 0: mu["status"] = "crashed"
    else: mu["status"] = "passed"
    mu["failed"] = list(dict.fromkeys(x for _, x in errs))
    return mu

def main():
    n = int(sys.argv[1]); seed = int(sys.argv[2]) if len(sys.argv) > 2 else 0
    files = [f"{LEAN}/Verif/{f}" for f in sys.argv[3:]] or sorted(glob.glob(LEAN + "/Verif/**/*.lean", recursive=True))
    rnd = random.Random(seed)
    todo = []
    for f in files:
        ms = mutants(f); rnd.shuffle(ms); todo += ms[:n]
    subprocess.run(["rm", "-rf", SCRATCH]); subprocess.run(["cp", "-a", LEAN, SCRATCH], check=True)
    os.makedirs("/tmp/mut", exist_ok=True)
    print(len(todo), "mutants", flush=True)
    passed = []
    with cf.ThreadPoolExecutor(2) as ex, open(OUT, "a") as out:
        for mu in ex.map(run, enumerate(todo)):
            if mu["status"] == "passed": passed.append(mu); continue
            t = {k: v for k, v in mu.items() if k != "text"}
            out.write(json.dumps(t, ensure_ascii=False) + "\n"); out.flush()
    print(len(passed), "to build", flush=True)
    with open(OUT, "a") as out:
        for mu in passed:
            path = f"{SCRATCH}/Verif/{mu['file']}"
            orig = open(path).read()
            open(path, "w").write(mu["text"])
            errs = []
            mod = "Verif." + mu["file"][:-5].replace("/", ".")
            users = subprocess.run(["grep", "-rlx", "import " + mod, SCRATCH + "/Verif"], capture_output=True, text=True).stdout
            ok = True
            if users:
                pr = subprocess.Popen(["lake", "build"], cwd=SCRATCH, stdout=subprocess.PIPE, stderr=subprocess.STDOUT, text=True)
                for l in pr.stdout:
                    m = re.match(r"error: (Verif/[^:\n]*\.lean):(\d+):", l)
                    if m:
                        errs.append(where(open(f"{SCRATCH}/{m.group(1)}").read(), int(m.group(2))))
                        ok = False
                        pr.kill(); subprocess.run(["pkill", "-f", SCRATCH])
                        break
                pr.wait()
            open(path, "w").write(orig)
            mu["failed"] = list(dict.fromkeys(x for _, x in errs))
            mu["status"] = "SURVIVED" if ok else ("invalid" if any(k == "def" for k, _ in errs) else "killed")
            t = {k: v for k, v in mu.items() if k != "text"}
            out.write(json.dumps(t, ensure_ascii=False) + "\n"); out.flush()
            if mu["status"] == "SURVIVED": print("SURVIVED", t["file"], t["definition"], "|", t["old"], "=>", t["new"], flush=True)

main()
