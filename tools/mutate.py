#!/usr/bin/env python3
"""Runs seeded wrong programs against the theorems, in a scratch copy. Usage: mutate.py batch.json
A batch is a list of {id, file, old, new, edit, claim}; results go to stdout and <batch>.out.jsonl.
If only concrete samples fail, they are assumed (in the scratch copy) and the build goes on, so that the general theorems behind
them are tried, too."""
import json, os, re, subprocess, sys, shutil
SRC = "/verif/lean"; MUT = "/tmp/mut/lean"
os.makedirs("/tmp/mut", exist_ok=True)
def sync():
    if shutil.which("rsync"): subprocess.run(["rsync", "-a", "--delete", SRC + "/", MUT + "/"], check=False)
    else: subprocess.run("rm -rf %s; cp -a %s %s" % (MUT, SRC, MUT), shell=True)
sync()
batch = json.load(open(sys.argv[1])); out = open(sys.argv[1] + ".out.jsonl", "a")
HEAD = re.compile(r"(?:@\[[^\]]*\]\s*)?(?:private |protected )?(theorem|lemma|def|instance|example|abbrev|inductive|structure)\b\s*(\S*)")
def blocks(path):
    ls = open(path).read().split("\n"); starts = [i for i, l in enumerate(ls) if HEAD.match(l)]
    return ls, starts
def owner(path, line):
    ls, starts = blocks(path); s = [i for i in starts if i < line]
    if not s: return "?", None
    i = s[-1]; m = HEAD.match(ls[i]); nxt = [j for j in starts if j > i]
    body = ls[i:(nxt[0] if nxt else len(ls))]
    name = m.group(2) if m.group(1) != "example" else "example@%d" % (i + 1)
    if m.group(1) == "def": name = "def " + name
    return name, (i, "\n".join(body), m.group(1))
def assume(path, info):
    i, body, kind = info
    # keep trailing comments out
    stmt = re.split(r":=\s*(?:by\b|fun\b|⟨|\n)", body, 1)[0]
    if kind == "example": new = "example : True := trivial\n"
    elif kind == "theorem": new = stmt.replace("theorem", "axiom", 1)
    else: return False
    tail = ""
    m = re.search(r"\n(/--|/-!|end |namespace |open |section|variable|attribute)", body)
    if m: tail = body[m.start():]
    ls = open(path).read()
    assert body in ls
    open(path, "w").write(ls.replace(body, new + tail + "\n", 1)); return True
for m in batch:
    f = os.path.join(MUT, "Verif", m["file"]); txt = open(f).read()
    n = txt.count(m["old"])
    if n != 1:
        print(m["id"], "BAD: %d matches" % n, flush=True); continue
    open(f, "w").write(txt.replace(m["old"], m["new"]))
    failed = []; saved = {}; assumed = []
    for rnd in range(6):
        r = subprocess.run("lake build 2>&1", shell=True, cwd=MUT, capture_output=True, text=True)
        new = []
        for e in re.finditer(r"error: (Verif/\S+?\.lean):(\d+):\d+", r.stdout):
            p = os.path.join(MUT, e.group(1)); o, info = owner(p, int(e.group(2)))
            if (p, o) not in [(a, b) for a, b, _ in new]: new.append((p, o, info))
            s = e.group(1)[6:-5] + ":" + o
            if s not in failed: failed.append(s)
        if not new: break
        if not all(info and info[2] in ("theorem", "example") and re.search(r"(:=|by|;)\s*(by\s+)?decide( \+kernel)?\s*(\n\s*(\n|/--|/-!|end )|$)", info[1]) for _, _, info in new): break
        ok = True
        for p, o, info in new:
            saved.setdefault(p, open(p).read())
            ok = assume(p, info) and ok
            assumed.append(o)
        if not ok: break
    rc = 1 if failed else r.returncode
    general = [x for x in failed if x.split(":", 1)[1] not in assumed]
    open(f, "w").write(txt)
    for p, t in saved.items(): open(p, "w").write(t)
    res = dict(m); res["failed"] = failed; res["general"] = general; res["rc"] = rc
    out.write(json.dumps(res) + "\n"); out.flush()
    print(m["id"], "SURVIVED" if rc == 0 else ("killed" if general else "SAMPLES ONLY"), general[:6], "samples:", assumed[:4], flush=True)
    if rc and not failed: print(r.stdout[-1500:])
