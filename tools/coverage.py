"""Lists, for every source file in /repo/src, the functions that no definition of the model cites by name or by line."""
import collections, glob, os, re

HERE = os.path.dirname(os.path.abspath(__file__))
ROOT = os.path.dirname(HERE)


def uncovered(repo="/repo/src"):
    text = "".join(open(f).read() for f in sorted(glob.glob(ROOT + "/lean/Verif/Model/*.lean")))
    cites = collections.defaultdict(list)
    for m in re.finditer(r"(zm_\w+\.[ch])((?::|, | and )[\d][\d\-, and]*)", text):
        for r in re.finditer(r"(\d+)(?:-(\d+))?", m.group(2)):
            a = int(r.group(1))
            cites[m.group(1)].append((a, int(r.group(2) or a)))
    total = missing = 0
    out = []
    for f in sorted(glob.glob(repo + "/*.c")):
        name = os.path.basename(f)
        lines = open(f).read().split("\n")
        fns = []
        for i, l in enumerate(lines):
            m = re.match(r"^(?!typedef|#|extern|ZM_|return|else)[A-Za-z].*?(\w+)\(.*\)\s*$", l)
            if not (m and i + 1 < len(lines) and lines[i + 1].startswith("{")):
                continue
            j = i + 1
            while not lines[j].startswith("}"):
                j += 1
            total += j - i + 1
            fn = m.group(1)
            if any(a <= j + 1 and b >= i + 1 for a, b in cites[name]) or re.search(r"\b" + re.escape(fn) + r"\b", text):
                continue
            fns.append(fn)
            missing += j - i + 1
        if fns:
            out.append((name, fns))
    return total, missing, out


if __name__ == "__main__":
    t, m, o = uncovered()
    for n, fns in o:
        print(n, " ".join(fns))
    print(t, m)
