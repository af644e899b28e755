"""Try wrong programs against the theorems, in a scratch copy outside /verif.

usage: mutate.py MUTANTS.json [name ...]

Each mutant: {"name", "file" (under lean/Verif), "old", "new", "definition", "edit", "claim"}.
Builds the whole library with the edit applied and appends one line per mutant to seeded/LOG.jsonl.
"""
import json, os, re, subprocess, sys, shutil

ROOT = "/verif/lean"
SCR = "/tmp/scratch/lean"


def sync():
    os.makedirs("/tmp/scratch", exist_ok=True)
    subprocess.run(["rm", "-rf", SCR], check=True)
    subprocess.run(["cp", "-a", ROOT, SCR], check=True)


def restore(f):
    shutil.copy2(f"{ROOT}/Verif/{f}", f"{SCR}/Verif/{f}")


DECL = re.compile(r"^(?:private |protected |noncomputable |@\[[^\]]*\] *)*(theorem|lemma|def|example|instance|structure)\b *(\S*)")


def enclosing(path, line):
    lines = open(path).read().split("\n")
    for i in range(min(line, len(lines)) - 1, -1, -1):
        m = DECL.match(lines[i])
        if m:
            return m.group(2) if m.group(1) != "example" else f"example@{os.path.basename(path)}:{i+1}"
    return "?"


def run(m):
    f = f"{SCR}/Verif/{m['file']}"
    src = open(f).read()
    assert src.count(m["old"]) == 1, (m["name"], src.count(m["old"]))
    open(f, "w").write(src.replace(m["old"], m["new"]))
    out = subprocess.run("lake build 2>&1", shell=True, cwd=SCR, capture_output=True, text=True, timeout=3600).stdout
    failed = []
    for mm in re.finditer(r"^error: (Verif/\S+?\.lean):(\d+):\d+", out, re.M):
        n = enclosing(f"{SCR}/{mm.group(1)}", int(mm.group(2)))
        if n not in failed:
            failed.append(n)
    blocked = sorted(set(re.findall(r"^- (Verif\S+)", out, re.M)))
    restore(m["file"])
    return out, failed, blocked


def main():
    muts = json.load(open(sys.argv[1]))
    only = set(sys.argv[2:])
    sync()
    for m in muts:
        if only and m["name"] not in only:
            continue
        out, failed, blocked = run(m)
        ok = "Build completed successfully" in out
        rec = {"name": m["name"], "definition": m["definition"], "edit": m["edit"], "claim": m["claim"],
               "theorems_failed": failed, "modules_failed": blocked, "survived": ok, "theorems_tightened": m.get("tightened", [])}
        print(json.dumps(rec), flush=True)
        with open("/verif/seeded/LOG.jsonl", "a") as g:
            g.write(json.dumps(rec) + "\n")
        open(f"/tmp/scratch/{m['name']}.out", "w").write(out)


if __name__ == "__main__":
    main()
