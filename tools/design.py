#!/usr/bin/env python3
"""Assemble DESIGN.md from tools/design_head.md, tools/design_rows.txt and tools/design_tail.md."""
import json, pathlib
root = pathlib.Path(__file__).resolve().parent.parent
titles = {d["id"]: d["title"] for d in map(json.loads, open(root / "properties.jsonl"))}
rows = []
for l in open(root / "tools/design_rows.txt"):
    i, what, how = l.strip().split("|")
    rows.append(f"| {i} {titles.get(i, '(planned)')} | {what} | {how} |")
missing = set(titles) - {r[2:].split()[0] for r in rows}
head = open(root / "tools/design_head.md").read()
tail = open(root / "tools/design_tail.md").read()
(root / "DESIGN.md").write_text(head + "| property | modelled | proof |\n|---|---|---|\n" + "\n".join(rows) + "\n" + tail)
print(len(rows), "rows; missing", sorted(missing))
