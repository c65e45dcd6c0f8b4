#!/usr/bin/env python3
"""Seeds bugs into a scratch copy of the model and records which theorems stop proving.

usage: mutate.py [name ...]   (default: every mutation not yet in seeded/LOG.jsonl)
Mutations are listed in tools/mutations.py."""
import json, os, re, subprocess, sys, shutil

HERE = os.path.dirname(os.path.abspath(__file__))
ROOT = os.path.join(HERE, "..")
SCRATCH = os.environ.get("MUTDIR", "/tmp/mut")
LOG = os.path.join(ROOT, "seeded", "LOG.jsonl")
sys.path.insert(0, HERE)
from mutations import MUTATIONS


BASE = SCRATCH + "base"


def snapshot():
    subprocess.run(["rm", "-rf", BASE], check=True)
    subprocess.run(["cp", "-a", os.path.join(ROOT, "lean"), BASE], check=True)


def sync():
    subprocess.run(["rm", "-rf", SCRATCH], check=True)
    subprocess.run(["cp", "-a", BASE, SCRATCH], check=True)


def decl_at(path, line):
    name = None
    with open(path) as f:
        for i, l in enumerate(f, 1):
            if i > line:
                break
            m = re.match(r"\s*(?:private |noncomputable |protected )*(theorem|def|example|lemma|instance|abbrev)\s*([^\s:({\[]*)", l)
            if m:
                name = m.group(2) or m.group(1)
    return name or "?"


def run(mu):
    sync()
    path = os.path.join(SCRATCH, "Verif", mu["file"])
    src = open(path).read()
    assert src.count(mu["old"]) >= 1, ("pattern not found", mu["name"])
    if "count" in mu:
        assert src.count(mu["old"]) == mu["count"], ("pattern count", mu["name"], src.count(mu["old"]))
    src = src.replace(mu["old"], mu["new"], mu.get("n", 1))
    open(path, "w").write(src)
    p = subprocess.run(["lake", "build"], cwd=SCRATCH, capture_output=True, text=True)
    out = p.stdout + p.stderr
    failed, mods = [], set()
    for m in re.finditer(r"error: (Verif/\S+\.lean):(\d+):", out):
        f, l = m.group(1), int(m.group(2))
        n = decl_at(os.path.join(SCRATCH, f), l)
        tag = f"{os.path.splitext(f)[0]}: {n}"
        if tag not in failed:
            failed.append(tag)
    return p.returncode == 0, failed, out


def blocked(failed):
    """Manifest theorems whose module fails or imports a failing module."""
    lean = BASE
    bad = {t.split(":")[0].replace("/", ".") for t in failed}
    imports, names = {}, {}
    for d, _, fs in os.walk(os.path.join(lean, "Verif")):
        for f in fs:
            if f.endswith(".lean"):
                path = os.path.join(d, f)
                mod = os.path.relpath(path, lean)[:-5].replace("/", ".")
                txt = open(path).read()
                imports[mod] = re.findall(r"^import (Verif\S*)", txt, re.M)
                names[mod] = re.findall(r"^theorem (\S+)", txt, re.M)
    def isbad(mod, seen=()):
        return mod in bad or any(isbad(i) for i in imports.get(mod, []))
    claimed = {t.split("TNCO.")[-1] for c in json.load(open(os.path.join(ROOT, "MANIFEST.json")))["claims"] for t in c["theorems"]}
    return sorted(n for mod in imports if isbad(mod) for n in names[mod] if n in claimed)


def main():
    done = set()
    if os.path.exists(LOG):
        done = {json.loads(l)["name"] for l in open(LOG) if l.strip()}
    names = sys.argv[1:]
    snapshot()
    for mu in MUTATIONS:
        if names and mu["name"] not in names:
            continue
        if not names and mu["name"] in done:
            continue
        ok, failed, out = run(mu)
        rec = dict(name=mu["name"], definition=mu["definition"], file=mu["file"], edit=mu["edit"],
                   breaks=mu["breaks"], survived=ok, theorems_failed=failed,
                   property_theorems_lost=blocked(failed),
                   tightened=mu.get("tightened", []))
        if "note" in mu:
            rec["note"] = mu["note"]
        print(json.dumps(rec), flush=True)
        if ok:
            print("   ^^^ SURVIVED", flush=True)
        lines = []
        if os.path.exists(LOG):
            lines = [l for l in open(LOG) if l.strip() and json.loads(l)["name"] != mu["name"]]
        lines.append(json.dumps(rec) + "\n")
        open(LOG, "w").writelines(lines)


main()
