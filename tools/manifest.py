# Generates /verif/MANIFEST.json and /verif/lean/Verif.lean
import json, os, re
root = '/verif'
claims = {
 'C01': ('proved', 'every history of adds returning False and clears; all operations and fills'),
 'C08': ('proved', 'for every permutation of the crossings found; hypotheses: distinct active bounds with non-nan current x; the order of the sweep is the one bubble_sort computes'),
 'C09': ('proved', ''),
 'C10': ('proved', ''),
 'C11': ('proved', ''),
 'C32': ('proved', ''),
 'C12': ('proved', 'every history of calls on a new object; coordinates up to 2^52; the sweep ends for every large enough bound on the steps of the model'),
 'C13': ('proved', 'coordinates up to 2^52; the bound is on scanlines, the loops inside are proved to end'),
 'C38': ('proved', 'coordinates up to 2^52'),
 'C14': ('proved', ''),
 'C36': ('proved', ''),
 'C15': ('proved', 'for rings whose coordinate differences convert to a double, i.e. are at most 2^1023'),
 'C37': ('proved', 'same range as C15'),
 'C16': ('proved', ''),
 'C17': ('proved', 'finite doubles; the nearest-integer claims for every rational the rounding functions are given'),
 'C18': ('proved', ''),
 'C19': ('proved', 'integer query points (inside_of also asks, when all vertices lie on the other ring, about float centroids, whose determinants are rounded: not covered)'),
 'C20': ('proved', ''),
 'C21': ('proved', ''),
 'C22': ('proved', 'for every run of append_ring that returns'),
 'C23': ('proved', 'the comparison of the areas is of the rounded ones, and exact up to 2^53'),
 'C02': ('proved', 'end to end: every object and history'),
 'C03': ('proved', 'for whole operations after any history of calls (C03_execute), and at build_result for every well-formed forest of rings'),
 'C24': ('proved', 'at build_result, and end to end for every operation that returns'),
 'C34': ('proved', 'end to end, and for each tree operation'),
 'C35': ('proved', 'every history of calls on a new object; coordinates up to 2^52 (C29 range); the horizontal extent under the guard that no active bound is left over by the sweep, unconditional without flat tops'),
 'C04': ('proved', 'every history of calls on a new object; Wagyu.bounds (C05) is not among the calls'),
 'C05': ('proved', 'the contract is violated by the code: the theorems prove the aliasing, the mutation for every geometry of the stated kind, and witnesses'),
 'C27': ('proved', 'all later histories of API calls'),
 'C28': ('proved', 'the contract is violated by the code: insert, append and extend never return; the theorems prove the violation for every list, value and amount of fuel'),
 'C29': ('proved', 'box containment for coordinates up to 2^52; exactness of the meet test and accuracy for coordinates up to 2^24'),
 'C30': ('proved', 'horizontal iff equal ys under the stated no-overflow hypothesis on the slope'),
 'C31': ('proved', ''),
 'C33': ('proved', ''),
 'C39': ('proved', 'the contract is violated by the code: witness for every sufficiently large fuel; the outcome of an operation does not depend on the fuel'),
 'C40': ('proved', 'every history with coordinates up to 2^52 and no stored bound ending in a horizontal edge (C39 shows the hypothesis is needed); and every history whatever the stored rings, for the scanlines before a bound ends without its partner (which is then left for good); the two sweeps, not topology correction'),
 'C41': ('proved', 'every history with coordinates up to 2^52; the stages of correct_topology before the loop over chained rings'),
 'C42': ('proved', 'every history with coordinates up to 2^52'),
 'C43': ('proved', 'every history with coordinates up to 2^52; the first call of correct_self_intersections (with correct_tree False)'),
 'C44': ('proved', 'every history with coordinates up to 2^52; containment as far as vertices tell (bounding box, one vertex inside or all vertices on the boundary)'),
 'C45': ('partial', 'for the runs in which the rings of every merged chain are distinct (checked by the run of lastStageWith mergeSimple, which then agrees with the code); without that proviso C45_links_stay_closed proves that no point is created or moved and that every ring that is left is a closed doubly linked list of points that were in rings; missing: that the rings of a chain are always distinct, and that the loop ends'),
 'C46': ('partial', 'for the runs in which the rings of every merged chain are distinct (see C45)'),
 'C47': ('proved', 'the contract is violated: the theorem gives the witness and the wrong region'),
 'C48': ('proved', 'every history with coordinates up to 2^52, every scanline; the statement about output rings as long as no bound has ended without its partner; the order of the active bounds around the point is a hypothesis (it is decided in floating point)'),
 'C49': ('proved', 'every history, any coordinates, all outcomes'),
 'C50': ('proved', 'every history, any coordinates; equality of all outcomes; emptiness of every result returned'),
 'C51': ('proved', 'every history with coordinates up to 2^52; all results returned; C51_spanning adds, under the guard of C35_horizontal_extent, that the edges span the rows of their vertices'),
 'C52': ('proved', 'every history, axis-parallel rings with coordinates up to 2^24; all results returned'),
 'C53': ('proved', 'every history with coordinates up to 2^52; all results of operations whose sweep leaves no active bound over, and unconditionally on rings without flat tops'),
 'C54': ('proved', 'every history with coordinates up to 2^k, k up to 52; the error bound is 1/2 + 2^k / 2^50 along each axis; all results of operations whose sweep leaves no active bound over, and unconditionally on rings without flat tops'),
 'C55': ('proved', 'every list of points and every state; the size of the ring is within the step bound of the model'),
 'C56': ('proved', 'for crossings the theorem proves the comparison inconsistent, with a witness'),
 'C58': ('proved', 'the fuel bound of the statements is met by every fuel from 3 * length + 3 on'),
 'C59': ('proved', 'the fuel bound of the statements is met by every fuel from 3 * length + 3 on'),
 'C60': ('proved', 'bounds are numbered in the model; the numbers of the added bounds may differ, which the theorem states by a renaming'),
 'C61': ('proved', 'the fuel bound of the statements is met by every fuel from 3 * length + 3 on'),
 'C62': ('proved', 'the fuel bound of the statements is met by every fuel from 3 * length + 3 on'),
 'C63': ('proved', 'the fuel bound of the statements is met by every fuel from 3 * length + 3 on'),
 'C64': ('proved', 'the fuel bound of the statements is met by every fuel from 3 * length + 3 on'),
 'C57': ('proved', 'two theorems are witnesses of failures: equal objects with different results, operations visible to =='),
 'C06': ('proved', 'every state reached by any sequence of sweep events (Verif.Spec.Events); and at the end of every scanline of every operation on rings without flat tops, and on any rings as long as no bound has ended without its partner'),
 'C07': ('proved', 'every state reached by any sequence of sweep events (Verif.Spec.Events); and at the end of every scanline of every operation on rings without flat tops, and on any rings as long as no bound has ended without its partner'),
 'C25': ('proved', 'every state reached by any sequence of sweep events (Verif.Spec.Events); and at the end of every scanline of every operation on rings without flat tops, and on any rings as long as no bound has ended without its partner'),
 'C26': ('proved', 'every state reached by any sequence of sweep events; do_maxima with the partner to the right'),
}
exec(open(root + '/tools/claims_extra.py').read()) if os.path.exists(root + '/tools/claims_extra.py') else None
thms = {}
for d, _, fs in os.walk(root + '/lean/Verif'):
    for f in sorted(fs):
        if f.endswith('.lean'):
            for m in re.finditer(r'^theorem (C\d\d_[A-Za-z0-9_\']+)', open(os.path.join(d, f)).read(), re.M):
                thms.setdefault(m.group(1)[:3], []).append('Wagyu.' + m.group(1))
ids = [json.loads(l)['id'] for l in open(root + '/properties.jsonl')]
out = []
for i in ids:
    if i in thms and i in claims:
        st, note = claims[i]
        out.append(dict(property=i, status=st, theorems=thms[i], note=note))
    elif i in thms:
        print('theorems but no claim', i)
json.dump({'claims': out}, open(root + '/MANIFEST.json', 'w'), indent=1)
mods = []
for d, _, fs in os.walk(root + '/lean/Verif'):
    for f in fs:
        if f.endswith('.lean'):
            mods.append(os.path.relpath(os.path.join(d, f), root + '/lean')[:-5].replace('/', '.'))
open(root + '/lean/Verif.lean', 'w').write(''.join('import %s\n' % m for m in sorted(mods)))
print(len(out), 'claims', sum(len(c['theorems']) for c in out), 'theorems', 'missing', [i for i in ids if i not in thms])
