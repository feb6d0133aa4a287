"""Seeded-bug harness: apply each edit of a JSON list to a scratch copy of the Lean project, rebuild, log what fails.

usage: seed.py mutants.json
Each mutant: {"file": ..., "def": ..., "old": ..., "new": ..., "claim": ..., "tightened": [...]}
"""
import json, os, re, shutil, subprocess, sys

SRC = "/verif/lean"
DST = "/tmp/seed/lean"
LOG = "/verif/seeded/LOG.jsonl"


def sync():
    os.makedirs("/tmp/seed", exist_ok=True)
    subprocess.run(["rsync", "-a", "--delete", SRC + "/", DST + "/"], check=True) if shutil.which("rsync") else (
        shutil.rmtree(DST, ignore_errors=True), subprocess.run(["cp", "-a", SRC, DST], check=True))


DECL = re.compile(r"^(?:@\[[^\]]*\]\s*)?(?:private |noncomputable |protected )*(theorem|lemma|example|def|instance|structure)\b\s*([\w.'?₀-₉]*)")


def enclosing(path, line):
    lines = open(path).read().split("\n")
    for i in range(min(line, len(lines)) - 1, -1, -1):
        m = DECL.match(lines[i])
        if m:
            return m.group(1), m.group(2) or f"example@{i + 1}"
    return "?", "?"


def build():
    p = subprocess.run(["lake", "build"], cwd=DST, capture_output=True, text=True)
    out = p.stdout + p.stderr
    failed = []
    for m in re.finditer(r"^error: (Verif/[\w/]+\.lean):(\d+):", out, re.M):
        kind, name = enclosing(os.path.join(DST, m.group(1)), int(m.group(2)))
        t = (m.group(1), kind, name)
        if t not in failed:
            failed.append(t)
    bad = re.findall(r"^- (Verif[\w.]*)$", out, re.M)
    return p.returncode, failed, bad


def strip_examples():
    """Examples are tests, not theorems: drop them so that they do not hide theorem failures."""
    for root, _, files in os.walk(os.path.join(DST, "Verif")):
        for n in files:
            if n.endswith(".lean") and "/Props" in root:
                p = os.path.join(root, n)
                out, skip = [], False
                for line in open(p).read().split("\n"):
                    if line.startswith("example"):
                        skip = True
                        if out and out[-1].rstrip().endswith("-/"):
                            while not out[-1].startswith("/--"):
                                out.pop()
                            out.pop()
                        while out and re.match(r"(set_option|open) .* in$", out[-1].rstrip()):
                            out.pop()
                        continue
                    if skip and (line == "" or line[0] not in " \t"):
                        skip = False
                    if not skip:
                        out.append(line)
                open(p, "w").write("\n".join(out))


def theorem_texts():
    res = {}
    for root, _, files in os.walk(os.path.join(DST, "Verif")):
        for n in files:
            if n.endswith(".lean"):
                cur, buf = None, []
                for line in open(os.path.join(root, n)).read().split("\n"):
                    m = DECL.match(line)
                    if m and m.group(2):
                        if cur:
                            res[cur] = "\n".join(buf)
                        cur, buf = m.group(2), []
                    buf.append(line)
                if cur:
                    res[cur] = "\n".join(buf)
    return res


def dependents(failed, texts):
    """Property theorems whose proofs use a failed lemma, directly or not."""
    bad = set(failed)
    tok = {k: set(re.findall(r"[\w'?₀-₉]+", v)) for k, v in texts.items()}
    while True:
        new = {k for k, t in tok.items() if k not in bad and t & bad}
        if not new:
            return sorted(k for k in bad if re.match(r"C\d\d+_", k))
        bad |= new


def main():
    muts = json.load(open(sys.argv[1]))
    dry = len(sys.argv) > 2 and sys.argv[2] == "--dry"
    sync()
    strip_examples()
    texts = theorem_texts()
    for mu in muts:
        f = os.path.join(DST, mu["file"])
        orig = open(f).read()
        n = orig.count(mu["old"])
        if n != 1:
            print("SKIP (occurrences %d): %s" % (n, mu["old"]))
            continue
        open(f, "w").write(orig.replace(mu["old"], mu["new"]))
        rc, failed, bad = build()
        model_broken = [t for t in failed if t[0] == mu["file"] and t[1] in ("def", "structure", "instance")]
        thms = [t[2] for t in failed if t[1] in ("theorem", "lemma")]
        props = dependents(thms, texts)
        exs = [t[0] + ":" + t[2] for t in failed if t[1] == "example"]
        status = "INVALID" if model_broken else ("killed" if thms else ("example-only" if exs else "SURVIVED"))
        print(status, "|", mu["def"], "|", mu["old"][:60].replace("\n", " "), "->", mu["new"][:60].replace("\n", " "), "|", thms[:4], props[:8])
        sys.stdout.flush()
        if not dry and status != "INVALID":
            with open(LOG, "a") as g:
                g.write(json.dumps({"definition": mu["def"], "file": mu["file"], "edit": mu["old"] + "  ==>  " + mu["new"],
                                    "claim_broken": mu["claim"], "theorems_failed": props or thms,
                                    "broken_proofs": thms, "theorems_tightened": mu.get("tightened", []), "outcome": status}, ensure_ascii=False) + "\n")
        open(f, "w").write(orig)


main()
