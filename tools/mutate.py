#!/usr/bin/env python3
"""Test the theorems against wrong programs.

usage: mutate.py [--first|--quick] seeded/mutants.jsonl [id ...]

Every mutant {id, file, definition, old, new, claim} is applied to a scratch copy of lean/ (outside /verif).  The copy
is rebuilt; a declaration whose proof no longer checks is given up (`sorry`, in the scratch copy only) and the build
repeated, until everything else builds.  The property theorems (C..) that then depend on a given up proof have failed;
all others still prove for the wrong program.  The result is appended to seeded/LOG.jsonl.

With --first the copy is built once: the theorems that have failed are those that depend, in the true model, on a proof
that no longer checks; modules after the first failures are not looked at.  With --quick the build is stopped at the first
module with a failure.
"""
import fcntl
import json, re, subprocess, sys, pathlib, shutil, os
ROOT = pathlib.Path(__file__).resolve().parent.parent
SCR = pathlib.Path(os.environ.get("SCRATCH", "/tmp/scratch"))
DECL = re.compile(r"^(?:@\[[^\]]*\]\s*)?(?:private |protected |noncomputable )*(theorem|lemma|example|def|instance|structure|inductive|abbrev)\b\s*(\S*)")

def sync():
    SCR.mkdir(parents=True, exist_ok=True)
    src = {q.relative_to(ROOT / "lean"): q for q in (ROOT / "lean").rglob("*") if q.is_file() and ".lake" not in q.parts}
    for q in SCR.rglob("*"):
        if q.is_file() and ".lake" not in q.parts and q.relative_to(SCR) not in src: q.unlink()
    for r, q in src.items():
        t = SCR / r
        if not t.exists() or t.read_bytes() != q.read_bytes():
            t.parent.mkdir(parents=True, exist_ok=True)
            t.write_bytes(q.read_bytes())
    if not (SCR / ".lake").exists():
        shutil.copytree(ROOT / "lean" / ".lake", SCR / ".lake", symlinks=True)

def decl_at(lines, n):
    """0-based range [a, b) of the declaration containing line n"""
    a = min(n, len(lines) - 1)
    while a >= 0 and not DECL.match(lines[a]): a -= 1
    b = a + 1
    while b < len(lines) and (lines[b].strip() == "" or lines[b][0] in " \t" or (lines[b].startswith("|"))): b += 1
    return a, b

def proof_start(text):
    d, i = 0, 0
    while i < len(text):
        c = text[i]
        if c in "([{⟨": d += 1
        elif c in ")]}⟩": d -= 1
        elif d == 0:
            if text.startswith(":=", i) and not re.search(r"(let|have)\s+\S+\s*(:[^\n]*)?$", text[:i]): return i
            if text.startswith(" where\n", i): return i
            if text.startswith("\n  | ", i): return i
        i += 1
    return None

DEPS = """import Verif
import Lean
open Lean
run_cmd do
  let env ← getEnv
  let mods := env.header.moduleNames
  let mut out : Array String := #[]
  for (n, c) in env.constants.map₁.toList do
    match env.getModuleIdxFor? n with
    | some i =>
      if (mods[i.toNat]!).getRoot == `Verif then
        let used := c.getUsedConstantsAsSet.toList.filter fun m => match env.getModuleIdxFor? m with
          | some j => (mods[j.toNat]!).getRoot == `Verif
          | none => false
        out := out.push (s!"{n}\\t" ++ " ".intercalate (used.map toString))
    | none => pure ()
  IO.FS.writeFile "OUT" ("\\n".intercalate out.toList)
"""

def dependents():
    """for each declaration the property theorems that depend on it"""
    subprocess.run(["lake", "build"], cwd=ROOT / "lean", capture_output=True)
    pathlib.Path("/tmp/deps.lean").write_text(DEPS.replace("OUT", "/tmp/deps.txt"))
    subprocess.run(["lake", "env", "lean", "/tmp/deps.lean"], cwd=ROOT / "lean", check=True)
    users = {}
    for l in open("/tmp/deps.txt"):
        n, _, us = l.rstrip("\n").partition("\t")
        for u in us.split(): users.setdefault(u, set()).add(n)
    def of(name):
        seen, todo = set(), [name]
        while todo:
            x = todo.pop()
            if x in seen: continue
            seen.add(x)
            todo += users.get(x, ())
        return sorted(x[6:] for x in seen if re.match(r"Gocfl\.C\d\d+_\w+$", x))
    return of

def build_quick():
    p = subprocess.Popen(["lake", "build"], cwd=SCR, stdout=subprocess.PIPE, stderr=subprocess.STDOUT, text=True, start_new_session=True)
    out, bad = [], False
    for l in p.stdout:
        if bad and re.match(r"^(✔|✖|⚠|ℹ|trace|info|Some)", l): break
        out.append(l)
        if l.startswith("error: Verif/"): bad = True
        if bad and l.startswith("error: Lean exited"): break
    try: os.killpg(p.pid, 15)
    except ProcessLookupError: pass
    p.wait()
    return "".join(out), 1 if bad else p.returncode

def run_first(m, deps, quick=False):
    sync()
    f = SCR / m["file"]
    s = f.read_text()
    if s.count(m["old"]) != m.get("count", 1):
        return {"error": f"pattern occurs {s.count(m['old'])} times"}
    f.write_text(s.replace(m["old"], m["new"]))
    if quick: out, code = build_quick()
    else:
        p = subprocess.run(["lake", "build"], cwd=SCR, capture_output=True, text=True)
        out, code = p.stdout + p.stderr, p.returncode
    errs = re.findall(r"^error: (Verif/\S+\.lean):(\d+):\d+: (.*)", out, re.M)
    if not errs and code: return {"error": out[-800:]}
    broken, failed = [], set()
    for g, ln, msg in errs:
        lines = (SCR / g).read_text().split("\n")
        a, b = decl_at(lines, int(ln) - 1)
        if a < 0: continue
        k, name = DECL.match(lines[a]).groups()
        if k not in ("theorem", "lemma", "example"): return {"error": f"{g}:{ln} {k} {name}: {msg}"}
        key = f"{g[6:-5]}:{name if k != 'example' else 'example'}"
        if key not in broken: broken.append(key)
        failed.update(deps("Gocfl." + name))
    return {"failed": sorted(failed), "broken": broken, "first": True}

def run(m):
    sync()
    f = SCR / m["file"]
    s = f.read_text()
    if s.count(m["old"]) != m.get("count", 1):
        return {"error": f"pattern occurs {s.count(m['old'])} times"}
    f.write_text(s.replace(m["old"], m["new"]))
    given, removed = [], []
    for _ in range(120):
        p = subprocess.run(["lake", "build"], cwd=SCR, capture_output=True, text=True)
        out = p.stdout + p.stderr
        errs = re.findall(r"^error: (Verif/\S+\.lean):(\d+):\d+: (.*)", out, re.M)
        if not errs:
            if p.returncode: return {"error": out[-800:]}
            break
        byfile = {}
        for g, ln, msg in errs: byfile.setdefault(g, []).append((int(ln) - 1, msg))
        for g, lns in byfile.items():
            q = SCR / g
            lines = q.read_text().split("\n")
            where = {}
            for ln, msg in sorted(lns): where.setdefault(decl_at(lines, ln), (ln, msg))
            for (a, b), (ln, msg) in sorted(where.items(), reverse=True):
                if a < 0: continue
                k, name = DECL.match(lines[a]).groups()
                key = f"{g[6:-5]}:{name if k != 'example' else 'example'}"
                if k not in ("theorem", "lemma", "example"):
                    return {"error": f"{g}:{ln+1} {k} {name}: {msg}"}
                text = "\n".join(lines[a:b])
                i = proof_start(text)
                tag = f"{key}@{text[:60]}"
                if i is None or tag in given:
                    if tag in removed: return {"error": f"stuck at {tag}"}
                    removed.append(tag)
                    if a and lines[a - 1].rstrip().endswith("-/"):
                        while not lines[a - 1].startswith("/--"): a -= 1
                        a -= 1
                    lines[a:b] = [""]
                    continue
                given.append(tag)
                lines[a:b] = (text[:i] + " := by sorry\n").split("\n")
            q.write_text("\n".join(lines))
    else:
        return {"error": "no end"}
    names = []
    for g in sorted((SCR / "Verif/Props").glob("*.lean")):
        names += re.findall(r"^theorem (C\d\d\w*)", g.read_text(), re.M)
    chk = SCR / "Axioms.lean"
    chk.write_text("import Verif\nopen Gocfl\n" + "\n".join(f"#print axioms {n}" for n in names))
    out = subprocess.run(["lake", "env", "lean", "Axioms.lean"], cwd=SCR, capture_output=True, text=True).stdout
    chk.unlink()
    bad = []
    for n, ax in re.findall(r"'(?:Gocfl\.)?(\S+)' depends on axioms: \[([^\]]*)\]", out):
        if "sorryAx" in ax: bad.append(n)
    bad += [t.split("@")[0].split(":")[1] for t in removed if re.match(r"C\d\d", t.split("@")[0].split(":")[1])]
    return {"failed": bad, "broken": [t.split("@")[0] for t in given + removed], "statements_lost": [t.split("@")[0] for t in removed]}

def main():
    lock = open(str(SCR) + '.lock', 'w')
    fcntl.flock(lock, fcntl.LOCK_EX)
    quick = "--quick" in sys.argv
    first = quick or "--first" in sys.argv
    args = [a for a in sys.argv[1:] if a not in ("--first", "--quick")]
    ms = [json.loads(l) for l in open(args[0]) if l.strip()]
    ids = set(args[1:])
    deps = dependents() if first else None
    done = set()
    for l in open(ROOT / "seeded/LOG.jsonl"):
        if l.strip(): done.add(json.loads(l).get("id"))
    for m in ms:
        if ids and m["id"] not in ids or not ids and m["id"] in done: continue
        r = run_first(m, deps, quick) if first else run(m)
        rec = {"id": m["id"], "definition": m["definition"], "file": m["file"], "edit": {"old": m["old"], "new": m["new"]},
               "claim": m["claim"], "failed": r.get("failed", []), "tightened": m.get("tightened", []),
               "broken_lemmas": r.get("broken", [])[:40]}
        if first: rec["first_failures"] = True
        print(m["id"], r.get("error") or ("FAILED " + " ".join(r["failed"]) if r["failed"] else "SURVIVED" if not r["broken"] else "ONLY LEMMAS " + " ".join(r["broken"])), flush=True)
        if "error" in r: continue
        with open(ROOT / "seeded/LOG.jsonl", "a") as g: g.write(json.dumps(rec) + "\n")
main()
