"""Mutation testing of the model in a scratch copy.

usage: python3 tools/mutate.py FILE.json
FILE.json: list of {"def","file","old","new","edit","breaks"}; file is relative to lean/Verif.
For each mutation: copy lean/ to a scratch directory, apply the edit, rebuild file by file; a theorem whose
proof fails is replaced by a placeholder in the scratch copy so that the rest can be checked; finally every
theorem of Props/ that depends on a placeholder is reported. One line per mutation is printed and appended
to seeded/LOG.jsonl (unless --dry). With --fast the rebuild stops after the first module of Props/ in which a
theorem fails.
"""
import json, os, re, shutil, subprocess, sys

ROOT = os.path.dirname(os.path.dirname(os.path.abspath(__file__)))
SCR = os.environ.get("SCRATCH", "/tmp/mutscratch")
START = re.compile(r"^(?:@\[[^\]]*\]\s*)?(?:private |protected |noncomputable )*(theorem|lemma|example|def|abbrev|instance|structure|inductive|namespace|end |open|variable|section|/-)", re.M)


def sh(cmd, cwd):
    return subprocess.run(cmd, cwd=cwd, shell=True, capture_output=True, text=True)


def decls(src):
    """(start offset, kind, name) of top-level items"""
    out = []
    for m in START.finditer(src):
        k = m.group(1)
        nm = re.match(r"\s*([^\s:({\[]+)", src[m.end():])
        out.append((m.start(), k, nm.group(1) if nm and k in ("theorem", "lemma", "def", "abbrev") else k))
    return out


def item_at(src, line):
    """index of the top-level item to which a line belongs"""
    off = sum(len(l) + 1 for l in src.split("\n")[: line - 1])
    ds = decls(src)
    i = max((i for i, d in enumerate(ds) if d[0] <= off), default=None)
    if i is None:
        return None
    while ds[i][1] == "/-" and i + 1 < len(ds):
        i += 1
    return i


def sorry_at(src, i):
    ds = decls(src)
    s, k, n = ds[i]
    if k not in ("theorem", "lemma", "example"):
        return None
    e = ds[i + 1][0] if i + 1 < len(ds) else len(src)
    body = src[s:e]
    if k == "example":
        return src[:s] + "example : True := trivial\n\n" + src[e:], "example"
    depth = 0
    for j, ch in enumerate(body):
        if ch in "([{⟨":
            depth += 1
        elif ch in ")]}⟩":
            depth -= 1
        elif depth == 0 and re.match(r"\n  \| .*=>", body[j:]):
            return src[:s] + body[:j] + " := sorry\n\n" + src[e:], n
        elif depth == 0 and body.startswith(":=", j):
            if re.match(r"\s*(let|have)\b", body[body.rfind("\n", 0, j) + 1:j]):
                continue
            return src[:s] + body[:j] + ":= sorry\n\n" + src[e:], (n if k != "example" else "example")
    return None


def topo(files):
    """files in dependency order"""
    deps = {}
    for f in files:
        t = open(os.path.join(SCR, "lean", f)).read()
        deps[f] = [m.replace(".", "/") + ".lean" for m in re.findall(r"^import (Verif\.\S+)", t, re.M)]
    seen, out = set(), []

    def go(f):
        if f in seen:
            return
        seen.add(f)
        for d in deps.get(f, []):
            go(d)
        out.append(f)
    for f in files:
        go(f)
    return out, deps


def axioms(L, files):
    """theorems of the given modules that depend on a placeholder, and the others"""
    tainted, alive, names = [], [], []
    for f in files:
        src = open(os.path.join(L, f)).read()
        ns = re.search(r"^namespace (\S+)", src, re.M).group(1)
        names += [ns + "." + n for (_, k, n) in decls(src) if k == "theorem"]
    ax = SCR + "/ax.lean"
    open(ax, "w").write("\n".join("import " + f[:-5].replace("/", ".") for f in files) + "\n" + "\n".join("#print axioms " + n for n in names))
    for m in re.finditer(r"'([^']+)' (does not depend on any axioms|depends on axioms: \[([^\]]*)\])", sh("lake env lean " + ax, L).stdout):
        (tainted if "sorryAx" in (m.group(3) or "") else alive).append(m.group(1).split(".")[-1])
    return tainted, alive


def run(mut, fast=False):
    if os.path.exists(SCR):
        sh(f"rsync -a --delete {ROOT}/lean/ {SCR}/lean/", "/") if shutil.which("rsync") else (shutil.rmtree(SCR), shutil.copytree(ROOT + "/lean", SCR + "/lean"))
    else:
        shutil.copytree(ROOT + "/lean", SCR + "/lean")
    L = SCR + "/lean"
    edits = mut.get("edits") or [mut]
    for ed in edits:
        p = os.path.join(L, "Verif", ed["file"])
        src = open(p).read()
        if src.count(ed["old"]) != 1:
            return {"error": f"pattern occurs {src.count(ed['old'])} times", **mut}
        open(p, "w").write(src.replace(ed["old"], ed["new"]))
    files = []
    for d, _, fs in os.walk(L + "/Verif"):
        for f in fs:
            if f.endswith(".lean"):
                files.append(os.path.relpath(os.path.join(d, f), L))
    order, deps = topo(sorted(files))
    changed = set("Verif/" + ed["file"] for ed in edits)
    for f in order:
        if any(d in changed for d in deps.get(f, [])):
            changed.add(f)
    order = [f for f in order if f in changed]
    props = [f for f in order if f.startswith("Verif/Props/")]
    up = {}
    for f in order:
        up[f] = {f}.union(*[up[d] for d in deps[f] if d in up])
    if fast:
        props.sort(key=lambda f: len(up[f]))
    failed, notes, done, bad = [], [], set(), set()
    tainted, alive, stopped = [], [], False

    def build(f):
        mod = f[:-5].replace("/", ".")
        direct = []
        for rnd in range(60):
            r = sh(f"lake build {mod}", L)
            txt = r.stdout + r.stderr
            if r.returncode == 0:
                return True, direct
            mine = {int(m.group(2)) for m in re.finditer(r"error: (\S+?):(\d+):\d+", txt) if m.group(1).endswith(f)}
            src = open(os.path.join(L, f)).read()
            items = sorted({i for i in (item_at(src, l) for l in mine) if i is not None}, reverse=True)
            prog = False
            for i in items:
                rr = sorry_at(src, i)
                if rr:
                    src, n = rr
                    prog = True
                    direct.append(n)
            if not prog:
                break
            open(os.path.join(L, f), "w").write(src)
        notes.append(f"{f} not checked further")
        return False, direct

    for target in (props if fast else order):
        for f in order:
            if f not in up[target] or f in done:
                continue
            done.add(f)
            if up[f] & bad:
                bad.add(f)
                continue
            ok, direct = build(f)
            failed += direct
            if not ok:
                bad.add(f)
                if f in props:
                    tainted += [n for n in direct if n != "example"]
        if fast and failed and target not in bad:
            t, alive = axioms(L, [target])
            tainted += t
        if fast and tainted:
            stopped = True
            break
    if not stopped:
        t, alive = axioms(L, [f for f in props if f not in bad])
        tainted += t
    compileerr = "; ".join(notes)
    return {"definition": mut["def"], "edit": mut["edit"], "claim_broken": mut["breaks"],
            "theorems_failed": tainted, "lemmas_failed": sorted(set(failed)), "still_proved": alive, "note": compileerr or ("stopped at the first module with failures" if stopped else None)}


if __name__ == "__main__":
    dry = "--dry" in sys.argv
    if "--check" in sys.argv:
        for mut in json.load(open(sys.argv[1])):
            for ed in mut.get("edits") or [mut]:
                n = open(os.path.join(ROOT, "lean/Verif", ed["file"])).read().count(ed["old"])
                if n != 1:
                    print(mut["def"], mut["edit"], "pattern occurs", n, "times")
        sys.exit()
    for mut in json.load(open(sys.argv[1])):
        r = run(mut, "--fast" in sys.argv)
        print(json.dumps(r)[:1500], flush=True)
        if not dry and "error" not in r:
            r2 = {k: r[k] for k in ("definition", "edit", "claim_broken", "theorems_failed")}
            r2["theorems_tightened"] = mut.get("tightened", [])
            if r["note"]:
                r2["note"] = r["note"]
            r2["other_props_still_proved"] = len(r["still_proved"])
            with open(ROOT + "/seeded/LOG.jsonl", "a") as f:
                f.write(json.dumps(r2) + "\n")
