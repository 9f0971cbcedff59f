"""Test the theorems against wrong programs.

Usage: seed.py SEEDS.json OUT.jsonl

SEEDS.json is a list of {file, old, new, definition, edit, claim}.  For each entry the Lean project is
copied to a scratch directory, the first occurrence of `old` in Verif/Model/`file` is replaced by
`new`, and the project is rebuilt.  `failed_lemmas` are the declarations with errors,
`theorems_failed` the property theorems that use one of them (or have errors themselves).
"""
import json, os, re, subprocess, sys

SRC = "/tmp/seed/base/"  # a built copy of /verif/lean
DST = "/tmp/seed/lean/"
DEPS = "/tmp/seed/deps.json"

DUMP = r'''
import Verif
open Lean
def own (env : Environment) (n : Name) : Bool :=
  match env.getModuleIdxFor? n with
  | some i => (env.header.moduleNames[i.toNat]!).getRoot == `Verif
  | none => false
run_cmd do
  let env ← getEnv
  for i in [0:env.header.moduleNames.size] do
    if (env.header.moduleNames[i]!).getRoot == `Verif then
      for c in env.header.moduleData[i]!.constants do
        let d := c.getUsedConstantsAsSet.toList.filter (own env)
        IO.println s!"DEP {c.name} {String.intercalate " " (d.map toString)}"
'''


def deps():
    if not os.path.exists(DEPS):
        open("/tmp/seed/dump.lean", "w").write(DUMP)
        out = subprocess.run(["lake", "env", "lean", "/tmp/seed/dump.lean"], cwd=SRC, capture_output=True,
                             text=True).stdout
        direct = {}
        for line in out.splitlines():
            if line.startswith("DEP "):
                p = line.split(" ")
                direct[p[1]] = p[2:]
        d = {}
        for n in direct:
            t = n.split(".")[-1]
            if n.startswith("QTN.Props.") and re.match(r"C\d\d_", t):
                seen, todo = set(), [n]
                while todo:
                    x = todo.pop()
                    if x not in seen:
                        seen.add(x)
                        todo += direct.get(x, [])
                d[t] = [x.split(".")[-1] for x in seen]
        json.dump(d, open(DEPS, "w"))
    return json.load(open(DEPS))


def decl_at(path, line):
    name = "?"
    for i, l in enumerate(open(path)):
        if i + 1 > line:
            break
        m = re.match(r"\s*(?:@\[[^\]]*\]\s*)?(?:private |protected |noncomputable )*"
                     r"(?:theorem|lemma|def|instance|example|abbrev)\s+([^\s({\[:]+)?", l)
        if m:
            name = m.group(1) or "example"
    return name


def main():
    d = deps()
    seeds = json.load(open(sys.argv[1]))
    for s in seeds:
        subprocess.run("rm -rf %s; cp -a %s %s" % (DST, SRC, DST), shell=True, check=True)
        f = DST + "Verif/Model/" + s["file"]
        t = open(f).read()
        if s["old"] not in t:
            print("NOT FOUND", s["definition"], s["old"]); continue
        open(f, "w").write(t.replace(s["old"], s["new"], 1))
        r = subprocess.run(["lake", "build"], cwd=DST, capture_output=True, text=True)
        out = r.stdout + r.stderr
        failed = []
        for m in re.finditer(r"error: (?:\./)?(Verif/\S+?\.lean):(\d+):\d+", out):
            n = (m.group(1), decl_at(DST + m.group(1), int(m.group(2))))
            if n not in failed:
                failed.append(n)
        names = [n.split(".")[-1] for _, n in failed]
        ths = sorted(t for t, ds in d.items() if t in names or any(n in ds for n in names))
        rec = {"definition": s["definition"], "edit": s["edit"], "claim": s["claim"],
               "failed_lemmas": [n for _, n in failed], "theorems_failed": ths, "tightened": [],
               "files": sorted({f for f, _ in failed})}
        open(sys.argv[2], "a").write(json.dumps(rec, ensure_ascii=False) + "\n")
        print(s["definition"], "|", s["edit"], "->", rec["failed_lemmas"][:6], len(ths), flush=True)


if __name__ == "__main__":
    main()
