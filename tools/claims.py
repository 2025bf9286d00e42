"""Source of MANIFEST.json: run `python3 tools/claims.py` in /verif."""
import json, re, pathlib
C = []
def claim(p, status, thms, note=""):
    C.append(dict(property=p, status=status, theorems=thms.split(), note=note))
def ns(prefix, names): return " ".join(prefix + "." + n for n in names.split())

S="Verif.Scatter"; D="Verif.DFTComm"; M="Verif.Mpi"; G="Verif.GSpace"; L="Verif.Lattice"; F="Verif.FFT"; DI="Verif.Dist"
claim("C01","proved",ns(S,"C01_scatter_partition C01_blocks_concat C01_bad_arguments C01_davidson_blocks"))
claim("C02","proved",ns(S,"C02_scatter_balanced"))
claim("C03","partial",ns(S,"C03_all_ranks_contract_fails C03_per_rank_calls_partial"),"The documented contract is false of the pinned code: the negation is proved; the partial theorem covers calls with an explicit rank.")
claim("C04","proved",ns(S,"C04_scatter_blocks C04_scatter_weights C04_distribute_blocks C04_distribute_round_robin"))
claim("C05","proved",ns(D,"C05_layout_bijection C05_accepts_iff"))
claim("C06","proved",ns(D,"C06_density_layout_independent C06_eigen_layout_independent"))
claim("C07","proved",ns(D,"C07_collectives_agree_iff"),"Exact characterisation: the pinned code breaks the intended contract exactly when there are fewer bands than band groups.")
claim("C08","proved",ns(M,"C08_skip_never_escapes C08_errors_propagate C08_error_stops C08_block_trace C08_parent_in_step C08_serial_block"))
claim("C09","partial",ns(M,"C09_null_refuses C09_serial_neutral_partial C09_allreduce_buffer_fails C09_scatter_fails C09_incl_single"),"Serial scatter and buffer Allreduce are not neutral in the pinned code (negations proved); every other operation is.")
claim("C10","proved",ns(G,"C10_index_bijection"))
claim("C11","proved",ns(G,"C11_canonical_order C11_data_round_trip C11_order_independent"))
claim("C12","proved",ns(G,"C12_g0_first")+" "+ns(DI,"C12_first_process_owns"))
claim("C13","proved",ns(L,"C13_sphere_fits C13_default_gspace")+" "+ns(G,"C13_selects_sphere"))
claim("C14","proved",ns(G,"C14_optimal_grid C14_zero_diverges"),"C14_zero_diverges: for a minimum of zero the search never ends (unreachable from the default grid, whose minimum is at least 1).")
claim("C15","partial",ns(G,"C15_never_rejects C15_accepts_too_small C15_accepts_fitting_partial"),"The pinned code never rejects a grid (negation proved).")
claim("C16","proved",ns(G,"C16_k_basis"))
claim("C17","proved",ns(F,"C17_drivers_compute_dft C17_round_trip"))
claim("C18","proved",ns(F,"C18_projection"))
claim("C19","proved",ns(F,"C19_sticks_eq_full"))
claim("C20","proved",ns(F,"C20_history_independent")+" "+ns(DI,"C22_distributed_eq_serial"),"The distributed driver's history independence is part of C22_distributed_eq_serial (any earlier calls).")
claim("C21","proved",ns(DI,"C21_partition C21_refuses C21_reachable"))
claim("C22","proved",ns(DI,"C22_distributed_eq_serial"))
claim("C23","partial",ns(DI,"C23_scatter_gather C23_rows C23_single_field_fails"),"Proved for every field with leading axes; a field without leading axes raises TypeError in the pinned code (C23_single_field_fails).")
claim("C26","proved",ns(L,"C26_conversions_inverse C26_metric C26_mesh_centred"))
claim("C27","proved",ns(L,"C27_duality"))
claim("C57","proved",ns(F,"C57_parseval"))
exec(open(pathlib.Path(__file__).parent/"claims_more.py").read())

if __name__ == "__main__":
    root = pathlib.Path(__file__).parent.parent
    C.sort(key=lambda c: c["property"])
    props=[json.loads(l)["id"] for l in open(root/"properties.jsonl")]
    assert len({c["property"] for c in C})==len(C), "dup claims"
    print("no claim:", [p for p in props if p not in {c["property"] for c in C}])
    print("no property:", [c["property"] for c in C if c["property"] not in props])
    names=set()
    for f in (root/"lean"/"Verif").rglob("*.lean"):
        cur=[]
        for line in open(f):
            m=re.match(r"namespace (\S+)",line)
            if m: cur.append(m.group(1))
            m=re.match(r"end (\S+)",line)
            if m and cur and cur[-1]==m.group(1): cur.pop()
            m=re.match(r"(?:noncomputable )?theorem (\S+)",line)
            if m: names.add(".".join(cur+[m.group(1)]))
    used={t for c in C for t in c["theorems"]}
    print("missing theorems:", sorted(used-names))
    print("unlisted property theorems:", sorted(n for n in names-used if re.search(r"\.C\d\d",n)))
    json.dump({"claims":C}, open(root/"MANIFEST.json","w"), indent=1)
