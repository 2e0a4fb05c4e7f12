"""Generates MANIFEST.json.  Theorem names are collected from the property files by their Cxx prefix;
status and notes come from the table below ("proved" unless listed)."""
import json, re, glob

NOTES = {
 "C141": ("partial", "Refuted as stated (C141_refuted: in the high-temperature limit the energy is at most 10/17 of the work); C141_zeroT_partial: holds for perfect mirrors in vacuum at zero temperature up to the cut-off of the frequencies; C141_highT_limit: effect of the lower limit of the wavenumbers."),
 "C65": ("partial", "Refuted as stated (C65_refuted, C65_overwrites, C65_third_run: of three runs with one output name the second result is lost); C65_partial, C65_run_partial: holds at every crash point if one of the two names is free; C65_iff: exactly then."),
 "C62": ("partial", "Refuted as stated (C62_refuted); C62_half: pressureRoundTrip is exactly one half of minus the derivative, for all parameters; C62_partial: the statement holds exactly where the pressure vanishes."),
 "C64": ("partial", "Refuted as stated (C64_ignored: spheresphereForce and planeplane_e0 never use the flag; C64_refuted: a concrete wrong value); C64_partial: free energy and pressure at finite temperature and the high-temperature limit obey it."),
 "C49": ("partial", "Refuted as stated (C49_refuted, C49_shared_radii_refuted); C49_partial: holds when the last two materials differ, only two are given or the innermost sphere raises; C49_effect: what happens otherwise."),
 "C54": ("partial", "Reversibility (C54_reversible) and the exterior case (C54_exterior) hold; the interior bound is refuted for the computed table (C54_interior_refuted: x = 10^6) and holds for exact Bessel functions (C54_interior_partial)."),
 "C45": ("partial", "Refuted as stated (C45_magnetic_refuted for every static permeability other than one, C45_order_refuted); C45_plasma_partial: holds for non-magnetic spheres with the plasma oscillator first; C45_true_limit: the correct limit in general; C45_truncated_partial: error due to the truncated fraction."),
 "C46": ("partial", "C46_pec, C46_dielectric, C46_conductor hold; refuted for plasma exteriors (C46_plasma_iff, C46_plasma_refuted, C46_lmin_refuted); C46_plasma_true_limit: the correct limit."),
 "C40": ("partial", "Refuted as stated (C40_refuted, C40_refuted_series); C40_elementwise_partial and C40_mixed_partial give the part that holds."),
 "C20": ("partial", "Refuted as stated (C20_refuted); C20_history_partial: holds for m <= 1 or after a call with the same k; C20_cold_call: what is returned otherwise."),
 "C25": ("partial", "Refuted as stated (C25_refuted: force() before the first free_energy()); C25_unaffected_by_force_partial: holds once free_energy() was evaluated."),
 "C15": ("partial", "Refuted as stated (C15_refuted: the running sum changes sign); C15_last_term_partial: holds whenever it keeps its sign."),
 "C18": ("partial", "Exact stopping rule: C18_stopping. Refuted as stated (C18_refuted: 0/0 in the first slice); C18_last_term_partial: holds otherwise; C18_terminates: termination."),
 "C08": ("partial", "Refuted as stated (C08_refuted: an invertible matrix with singular upper left block is rejected); C08_invertible_partial gives the part that holds."),
 "C71": ("partial", "Refuted as stated (C71_refuted); C71_debug_one_partial: single l; C71_debug_block_similar: each block on its own."),
}

def main():
    props = [json.loads(l) for l in open("/verif/properties.jsonl")]
    found = {}
    for f in sorted(glob.glob("/verif/lean/Verif/Props/*.lean")):
        for m in re.finditer(r"^theorem ((C\d\d+)\w*)", open(f).read(), re.M):
            found.setdefault(m.group(2), []).append("CasSph." + m.group(1))
    claims = []
    for p in props:
        i = p["id"]
        th = found.get(i, [])
        if th:
            st, note = NOTES.get(i, ("proved", p["title"]))
        else:
            continue  # no theorem yet
        claims.append({"property": i, "status": st, "theorems": th, "note": note})
    json.dump({"claims": claims}, open("/verif/MANIFEST.json", "w"), indent=1)
    print(sum(1 for c in claims if c["theorems"]), "of", len(claims))

main()
