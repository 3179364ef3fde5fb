#!/usr/bin/env python3
"""Writes MANIFEST.json; theorem names are taken from the Props files (prefix Cnn_)."""
import json, re, glob, os
root = os.path.dirname(os.path.dirname(os.path.abspath(__file__)))
# property -> (status, note)
STATUS = {
    "C01": ("proved", ""),
    "C02": ("proved", "the expectation is false; the theorems say exactly what happens instead"),
    "C03": ("proved", ""), "C04": ("proved", ""), "C05": ("proved", ""), "C06": ("proved", ""),
    "C07": ("proved", ""), "C08": ("proved", ""),
    "C09": ("proved", ""),
    "C10": ("proved", ""), "C11": ("proved", "for encodings that are disjoint in memory or the same one; C11_overlap_wrong shows the result is wrong for a sequence stored inside another one (ss_union_block compares pointers of the two)"),
    "C12": ("proved", ""), "C13": ("proved", ""), "C14": ("proved", ""),
    "C23": ("proved", ""), "C24": ("proved", ""), "C30": ("proved", ""), "C31": ("proved", ""),
    "C15": ("proved", "the general expectation is refuted by C15_wrong_after_long_jump; the restricted claim of the statement is proved for all histories (theorems suffixed _partial because they do not cover the refuted part); C15_aligned, C15_jump_exact and C15_periodic_exact say exactly which jumps are right, in terms of the data pointer: a misplaced data pointer may by coincidence still give a right answer"),
    "C16": ("proved", ""),
    "C22": ("proved", ""),
    "C25": ("proved", ""), "C26": ("proved", ""), "C27": ("proved", ""), "C28": ("proved", ""),
    "C32": ("proved", ""),
    "C17": ("proved", ""), "C18": ("proved", "the save format of the external essentials library is assumed (DESIGN.md section 4)"),
    "C19": ("proved", "the floating-point quotient is an arbitrary function of length and last element; C19_density relates it to the exact quotient for any monotone rounding"),
    "C20": ("proved", ""), "C21": ("proved", ""), "C29": ("proved", ""),
    "C33": ("proved", ""),
    "C34": ("proved", "Pairwise union and intersection, two calls, interleaved at the granularity of one phase of scratch-buffer use (clear, fill, read). The witness is a family of stored inputs, not one pair."),
    "C35": ("proved", ""), "C36": ("proved", ""),
    "C37": ("proved", ""), "C38": ("proved", ""), "C39": ("proved", ""),
    "C40": ("proved", ""),
    "C41": ("proved", ""),
    "C42": ("proved", ""),
    "C43": ("proved", ""),
    "C44": ("proved", ""),
    "C45": ("proved", ""),
    "C46": ("proved", ""),
    "C47": ("proved", ""),
    "C48": ("proved", ""),
    "C49": ("proved", ""),
    "C50": ("proved", ""),
    "C51": ("proved", "std::stod and std::atoi are parameters"),
    "C52": ("proved", "C52_build and C52_script take printing as a parameter that succeeds; C52_build_undefined instantiates it with the printing of C46"),
    "C53": ("proved", ""),
    "C54": ("proved", ""),
    "C55": ("proved", "A call that does not use the scratch objects has no step on shared state in the model, so the granularity of the interleaving matters only for the one call that does."),
    "C56": ("proved", "The interference of two calls of intersection is shown for lists within one slice; that suffices for a wrong result. One step of the interleaving is one call of uncompress_chunk or of a part of uncompress_chunk_and_merge / _and_intersect that uses the static objects, or the decoding of the bitmap."),
    "C57": ("proved", "Damage is at the granularity of whole slices, for contains and select in a slice stored as blocks of whole blocks: within a slice or block of which a byte is damaged nothing is claimed. For pairwise_intersection the damaged bytes must still be readable, because of the over-read of C23. For the skip pointers: the whole pointer area is damaged at once; intersection_many is not treated."),
    "C58": ("proved", "Cost is the number of addresses that determine the outcome in the model; a word read counts 8 bytes and no time or cache behaviour is modelled. The constants are upper bounds; only the factors in the number of slices are shown to be exact (all of it for cardinality)."),
    "C59": ("proved", "The exact condition is for decode; for the other operations C23 gives 31 bytes as sufficient. A page that is mapped reads as zeros after the end of the file; what follows the last page is taken to be unreadable."),
    "C60": ("proved", "Counters are unbounded in the model; C60_no_wrap shows that their final values, which are the largest they take, are below 2^64 for any realistic number of lists."),
    "C61": ("proved", "Reading past the end of the file is undefined in the model; on a real system the rest of the last page of a mapped file reads as zeros. Lists that pass the filter and are not valid are the subject of C39."),
    "C62": ("proved", "The checked loads are in a second model of decode and of the iterator (Model/Aligned.lean); the other queries are modelled with unchecked loads, as x86-64 executes them."),
    "C63": ("proved", "Rounding to nearest, ties to even, at the precision of each type (no extended precision, no fast-math); std::log2 stays a parameter."),
    "C64": ("proved", "The library functions are modelled in the default locale; the conversion of numbers outside of int is a parameter with the C standard and 64-bit glibc as instances, and the finding is the difference. For pairs the equality with the token model needs that everything in the input is a number."),
    "C65": ("proved", "For select nothing better than 'normal end, or the unreachable statement' holds, with a witness. next_geq_enumerator for arguments that do not decrease. How far the memory has to be readable is an upper bound, not exact."),
    "C66": ("proved", "Loads only, as C62; set operations with checked alignment are in C70."),
    "C67": ("proved", "Sizes are those of build_sequence outputs; the alternatives are sizes in the same layout, not programs."),
    "C68": ("proved", "A pairwise_union of two different sequences whose encodings overlap is not covered; output buffers with fewer than 23 spare slots are in C69."),
    "C69": ("proved", "A pairwise_union of two different sequences whose encodings overlap is not covered; output buffers that begin behind their own end are not covered."),
    "C70": ("proved", "Loads only, as C62. For the many-way intersection, exact if lists of more than 32 slices are at addresses that are 2 modulo 4; C70_intersection_many_search shows that this cannot be dropped. A pairwise_union of two different sequences whose encodings overlap is not covered."),
    "C71": ("proved", "Formulas have two-place operations; for the many-place ones see C30. The evaluation builds every intermediate result."),
    "C72": ("proved", "The enumerator of enumerator.hpp; the one of next_geq_enumerator.hpp reads single values and no vectors of bytes."),
    "C73": ("proved", "For every memory and every state of the static buffers; the exact room is for encodings, that of the pairwise operations is C69, that of decode C59."),
    "C74": ("proved", "For every memory and every state of the static buffers; pairwise_intersection needs a shuffle table with full rows (TabOk, as throughout), shown to be necessary."),
    "C75": ("proved", "The undefined cases (next_geq(0), pairwise_union, enumerator) are theorems that end in an error, for memories whose null page cannot be read."),
    "C76": ("proved", "Rounds of the loops over slices only; the moves within skip_to_value and advance are bounded by C58, the work on one slice by the size of a slice."),
    "C77": ("proved", "The session supposes that no list is empty, that 31 bytes of the last page are unused and that printing succeeds; C77_print, C77_few_lists and C77_quick_print say when it does not, C77_no_room and C77_union_overflow where the room ends. Random numbers and library functions are parameters (structure World)."),
    "C78": ("proved", "C78_build holds for every disk; C78_queries supposes 31 unused bytes in the last page and room for each list in decode, and says of intersect and union exactly when they are defined; C78_answered is the case in which all commands print."),
    "C79": ("proved", "C79_pairs supposes that everything in the input is a number; C79_lines and C79_sound hold for every input; C79_tests and C79_room are about an index file with pairs of its sequences, one to a line; C79_room, C79_room_union (mapped file with 31 unused bytes in its last page) and C79_room_many say exactly when the four programs are defined."),
    "C80": ("proved", "supposes that no bound lies more than 32 non-empty slices beyond the largest one before it, or that the slice sizes repeat every 32 slices (C15 says what happens otherwise) and that 0 is not asked for after the end was reached (C80_zero_after_end says what happens then)"),
    "C81": ("proved", "the cost counted is the number of moves to another slice (a jump over 32 slices counts 32) and to another block; the bytes that the results depend on are bounded from these moves and a constant for each call"),
}
exec(open(os.path.join(root, "scripts", "status.py")).read()) if os.path.exists(os.path.join(root, "scripts", "status.py")) else None
thms = {}
for f in sorted(glob.glob(os.path.join(root, "lean/Verif/Props/*.lean"))):
    for m in re.finditer(r"^theorem (C\d\d)_(\w+)", open(f).read(), re.M):
        thms.setdefault(m.group(1), []).append("Sliced." + m.group(1) + "_" + m.group(2))
props = [json.loads(l) for l in open(os.path.join(root, "properties.jsonl"))]
claims = []
for p in props:
    i = p["id"]
    if i in STATUS and thms.get(i):
        st, note = STATUS[i]
        claims.append({"property": i, "status": st, "theorems": thms[i], "note": note})
    elif thms.get(i):
        claims.append({"property": i, "status": "partial", "theorems": thms[i], "note": "work in progress"})
json.dump({"claims": claims}, open(os.path.join(root, "MANIFEST.json"), "w"), indent=1)
print(len(claims), "claims;", "missing:", [p["id"] for p in props if not thms.get(p["id"])])
