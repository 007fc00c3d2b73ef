#!/usr/bin/env python3
"""Seeded-bug harness.  usage: seed.py WORKDIR MUTANTS.json [ids...]
Copies /verif/lean to WORKDIR, applies one edit to a model file, rebuilds; every declaration whose proof
breaks is stubbed (in the scratch copy only) so that the rest can be checked, and in the end the axioms of
every C-theorem tell which ones rest on a broken proof."""
import json, os, re, subprocess, sys, time, glob, shutil
SRC = os.environ.get("SEED_SRC", "/verif/lean")
STUB = "so" + "rry"
TOP = re.compile(r"^(private |protected |noncomputable |@\[[^\]]*\] ?)*(theorem|lemma|example|def|instance|inductive|structure|abbrev|namespace|section|end|variable|open|/--|/-!|#|set_option|attribute|mutual|where)")

def sh(cmd, cwd, timeout=3600):
    return subprocess.run(cmd, shell=True, cwd=cwd, capture_output=True, text=True, timeout=timeout)

def decl_range(lines, ln):
    """indices [a,b) of the declaration enclosing 1-based line ln"""
    i = ln - 1
    while i >= 0 and not re.match(r"^(private |protected |@\[[^\]]*\] ?)*(theorem|lemma|example|def|instance|inductive|structure|abbrev)\b", lines[i]):
        i -= 1
    j = i + 1
    while j < len(lines) and not TOP.match(lines[j]):
        j += 1
    return i, j

def stub(path, linenos):
    lines = open(path).read().split("\n")
    names = []
    for i, j in sorted({decl_range(lines, ln) for ln in linenos}, reverse=True):
        if i < 0: continue
        head = lines[i]
        m = re.match(r".*?(theorem|lemma|example|def|instance|inductive|structure|abbrev)\s*(\S*)", head)
        kind, name = m.group(1), (m.group(2) if m.group(1) != "example" else "")
        text = "\n".join(lines[i:j])
        if kind not in ("theorem", "lemma", "example"):
            return None, f"{kind} {name} in {path}"
        if STUB in text and not re.match(r"C\d+", name):
            lines[i:j] = ["#check True"]  # its statement no longer elaborates
            continue
        if STUB in text:
            return None, f"already stubbed: {kind} {name} in {path} (statement no longer elaborates?)"
        # find := of the body: first ':=' outside brackets
        depth = 0; pos = None; k = 0
        while k < len(text):
            c = text[k]
            if c in "([{⟨": depth += 1
            elif c in ")]}⟩": depth -= 1
            elif text.startswith(":=", k) and depth == 0:
                # skip a 'let x := ...' inside the statement
                linestart = text.rfind("\n", 0, k) + 1
                before = text[linestart:k]
                if not re.search(r"\blet\s+[^;]*$", before): pos = k; break
            k += 1
        if pos is None:
            m2 = re.search(r"\n  \|", text)
            if not m2: return None, f"no body found: {kind} {name} in {path}"
            pos = m2.start()
        lines[i:j] = (text[:pos] + ":= by " + STUB + "\n").split("\n")
        names.append(name if name else f"example({os.path.basename(path)}:{i+1})")
    open(path, "w").write("\n".join(lines))
    return names, None

def run(work, m):
    os.makedirs(work, exist_ok=True)
    shutil.rmtree(work); shutil.copytree(SRC, work, symlinks=True)
    p = f"{work}/Verif/{m['file']}"
    s = open(p).read()
    if s.count(m["old"]) != m.get("count", 1):
        return {"id": m["id"], "error": f"old text occurs {s.count(m['old'])} times"}
    s = s.replace(m["old"], m["new"])
    for o, n in m.get("more", []):
        if o not in s: return {"id": m["id"], "error": "more not found: " + o}
        s = s.replace(o, n)
    open(p, "w").write(s)
    t0 = time.time(); broken = []; err = None
    for it in range(25):
        r = sh("lake build 2>&1", work)
        errs = {}
        for e in re.finditer(r"^error: (Verif/\S+\.lean):(\d+):\d+:", r.stdout, re.M):
            errs.setdefault(e.group(1), []).append(int(e.group(2)))
        if not errs:
            if "Build completed" not in r.stdout: err = r.stdout[-800:]
            break
        for f, lns in errs.items():
            if f.startswith("Verif/Model"):
                err = "model does not compile: " + r.stdout[-1500:]; break
            ns, e = stub(f"{work}/{f}", lns)
            if e:
                err = e; break
            broken += ns
        if err: break
    res = {"id": m["id"], "broken": broken, "seconds": round(time.time() - t0)}
    if err:
        res["error"] = err
        return res
    thms = []
    for f in sorted(glob.glob(f"{SRC}/Verif/Props/*.lean")):
        thms += re.findall(r"^theorem (C\d+_\w+)", open(f).read(), re.M)
    q = f"{work}/Q.lean"
    open(q, "w").write("import Verif\n" + "\n".join(f"#print axioms BletArgs.{t}" for t in thms))
    r = sh(f"lake env lean Q.lean 2>&1", work)
    failed = [t for t in thms if re.search(rf"'BletArgs\.{t}' depends on axioms:[^\]]*{STUB}Ax", r.stdout)]
    os.remove(q)
    res["failed"] = failed
    res["failed_directly"] = [t for t in failed if t in broken]
    return res

if __name__ == "__main__":
    work, mf = sys.argv[1], sys.argv[2]
    ms = json.load(open(mf)); ids = sys.argv[3:]
    out = mf.replace(".json", "") + ".results.jsonl"
    done = set()
    if os.path.exists(out):
        done = {json.loads(l)["id"] for l in open(out)}
    for m in ms:
        if ids and m["id"] not in ids: continue
        if m["id"] in done and not ids: continue
        try: r = run(work, m)
        except Exception as ex: r = {"id": m["id"], "error": repr(ex)}
        open(out, "a").write(json.dumps(r) + "\n")
        print(m["id"], "claim", m["claim"], "->", r.get("error") or ("FAILED: " + ", ".join(r["failed"])), flush=True)
