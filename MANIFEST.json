{
 "claims": [
  {
   "property": "C01",
   "status": "proved",
   "theorems": [
    "WTM.c01_round_trip",
    "WTM.c01_identity"
   ],
   "note": ""
  },
  {
   "property": "C02",
   "status": "proved",
   "theorems": [
    "WTM.c02_path_independent",
    "WTM.c02_path_independent_compound",
    "WTM.c02_round_trip_compound"
   ],
   "note": ""
  },
  {
   "property": "C03",
   "status": "proved",
   "theorems": [
    "WTM.c03_factor_pos",
    "WTM.c03_compound_factor_pos",
    "WTM.c03_order",
    "WTM.c03_order_compound"
   ],
   "note": ""
  },
  {
   "property": "C04",
   "status": "proved",
   "theorems": [
    "WTM.c04_compound_factor",
    "WTM.c04_unusable_text",
    "WTM.c04_simple_success",
    "WTM.c04_simple_reject",
    "WTM.c04_compound_reject"
   ],
   "note": ""
  },
  {
   "property": "C05",
   "status": "proved",
   "theorems": [
    "WTM.c05_alias",
    "WTM.c05_alias_compound"
   ],
   "note": ""
  },
  {
   "property": "C06",
   "status": "partial",
   "theorems": [
    "WTM.c06_false",
    "WTM.c06_metric_partial",
    "WTM.c06_approx_partial"
   ],
   "note": "False of the code for ft and in (counterexample proved); exact for metric units, within 2e-4 for all."
  },
  {
   "property": "C84",
   "status": "proved",
   "theorems": [
    "WTM.c84_factor_correct",
    "WTM.c84_conc_exact",
    "WTM.c84_compound_metric"
   ],
   "note": ""
  },
  {
   "property": "C07",
   "status": "proved",
   "theorems": [
    "WTM.c07_units_irrelevant",
    "WTM.c07_idempotent",
    "WTM.c07_same_of_size"
   ],
   "note": ""
  },
  {
   "property": "C08",
   "status": "proved",
   "theorems": [
    "WTM.c08_capacity",
    "WTM.c08_q_as_qf",
    "WTM.c08_round_trip"
   ],
   "note": ""
  },
  {
   "property": "C09",
   "status": "proved",
   "theorems": [
    "WTM.c09_velocity_from_flow",
    "WTM.c09_velocity_wins",
    "WTM.c09_loads"
   ],
   "note": ""
  },
  {
   "property": "C10",
   "status": "proved",
   "theorems": [
    "WTM.c10_round_trip",
    "WTM.c10_explicit_unit",
    "WTM.c10_load_save"
   ],
   "note": ""
  },
  {
   "property": "C11",
   "status": "proved",
   "theorems": [
    "WTM.c11_alpha_range",
    "WTM.c11_alpha_meaning",
    "WTM.c11_bicarbonate",
    "WTM.c11_unit_irrelevant"
   ],
   "note": ""
  },
  {
   "property": "C12",
   "status": "partial",
   "theorems": [
    "WTM.c12_false",
    "WTM.c12_partial",
    "WTM.c12_alkalinity_last_partial"
   ],
   "note": "False of the code when alkalinity is substituted by bicarbonate and is not the last, valence 1 ion (counterexample proved)."
  },
  {
   "property": "C13",
   "status": "partial",
   "theorems": [
    "WTM.c13_false",
    "WTM.c13_partial"
   ],
   "note": "False of the code when the sheet's kL is not in cm/s (counterexample proved)."
  },
  {
   "property": "C35",
   "status": "proved",
   "theorems": [
    "WTM.c35_time",
    "WTM.c35_bed_volumes",
    "WTM.c35_monotone"
   ],
   "note": ""
  },
  {
   "property": "C36",
   "status": "proved",
   "theorems": [
    "WTM.c36_positive"
   ],
   "note": ""
  },
  {
   "property": "C37",
   "status": "partial",
   "theorems": [
    "WTM.c37_false",
    "WTM.c37_partial",
    "WTM.c37_table"
   ],
   "note": "False of the code for valence other than 1 and for meq (counterexamples proved)."
  },
  {
   "property": "C14",
   "status": "proved",
   "theorems": [
    "WTM.c14_first_derivative",
    "WTM.c14_constants"
   ],
   "note": ""
  },
  {
   "property": "C15",
   "status": "proved",
   "theorems": [
    "WTM.c15_second_derivative"
   ],
   "note": ""
  },
  {
   "property": "C16",
   "status": "proved",
   "theorems": [
    "WTM.c16_radial"
   ],
   "note": ""
  },
  {
   "property": "C17",
   "status": "proved",
   "theorems": [
    "WTM.c17_positive_sum",
    "WTM.c17_exact",
    "WTM.c17_nodes_exist"
   ],
   "note": ""
  },
  {
   "property": "C18",
   "status": "proved",
   "theorems": [
    "WTM.c18_axial_elements",
    "WTM.c18_axial_single",
    "WTM.c18_radial_laplacian",
    "WTM.c18_weights"
   ],
   "note": ""
  },
  {
   "property": "C19",
   "status": "proved",
   "theorems": [
    "WTM.c19_piecewise",
    "WTM.c19_polynomials",
    "WTM.c19_inlet",
    "WTM.c19_constants",
    "WTM.c19_grid"
   ],
   "note": ""
  },
  {
   "property": "C20",
   "status": "proved",
   "theorems": [
    "WTM.c20_ocfe_size"
   ],
   "note": ""
  },
  {
   "property": "C21",
   "status": "proved",
   "theorems": [
    "WTM.c21_tabulated",
    "WTM.c21_between",
    "WTM.c21_range",
    "WTM.c21_total",
    "WTM.c21_const"
   ],
   "note": "interp1d is an external library function modelled by its documented behaviour; tables with at least two rows"
  },
  {
   "property": "C22",
   "status": "proved",
   "theorems": [
    "WTM.c22_monovalent"
   ],
   "note": ""
  },
  {
   "property": "C23",
   "status": "proved",
   "theorems": [
    "WTM.c23_divalent"
   ],
   "note": ""
  },
  {
   "property": "C24",
   "status": "proved",
   "theorems": [
    "WTM.c24_unique"
   ],
   "note": ""
  },
  {
   "property": "C25",
   "status": "proved",
   "theorems": [
    "WTM.c25_same",
    "WTM.c25_no_divalent_loaded"
   ],
   "note": ""
  },
  {
   "property": "C26",
   "status": "proved",
   "theorems": [
    "WTM.c26_agree"
   ],
   "note": ""
  },
  {
   "property": "C27",
   "status": "partial",
   "theorems": [
    "WTM.c27_false",
    "WTM.c27_partial"
   ],
   "note": "False of the code: ions of valence 3 or more are left out of the quadratic. c27_false refutes it, c27_partial gives the exact excess and the case where it holds."
  },
  {
   "property": "C28",
   "status": "proved",
   "theorems": [
    "WTM.c28_rates",
    "WTM.c28_solutions",
    "WTM.c28_schemes",
    "WTM.c28_total_is_Q"
   ],
   "note": ""
  },
  {
   "property": "C29",
   "status": "proved",
   "theorems": [
    "WTM.c29_bead",
    "WTM.c29_exchange"
   ],
   "note": ""
  },
  {
   "property": "C30",
   "status": "proved",
   "theorems": [
    "WTM.c30_uniform",
    "WTM.c30_advection_only",
    "WTM.az_rows_single",
    "WTM.az_rows_ocfe"
   ],
   "note": ""
  },
  {
   "property": "C31",
   "status": "proved",
   "theorems": [
    "WTM.c31_steady",
    "WTM.br_rows"
   ],
   "note": ""
  },
  {
   "property": "C32",
   "status": "proved",
   "theorems": [
    "WTM.c32_conserved",
    "WTM.c32_solutions",
    "WTM.c32_totals"
   ],
   "note": ""
  },
  {
   "property": "C33",
   "status": "proved",
   "theorems": [
    "WTM.c33_column",
    "WTM.c33_restart",
    "WTM.c33_batch",
    "WTM.c33_divalent_presaturant"
   ],
   "note": ""
  },
  {
   "property": "C34",
   "status": "proved",
   "theorems": [
    "WTM.c34_safe",
    "WTM.c34_entries"
   ],
   "note": ""
  },
  {
   "property": "C82",
   "status": "proved",
   "theorems": [
    "WTM.c82_rates",
    "WTM.c82_times",
    "WTM.c82_influent",
    "WTM.c82_solutions"
   ],
   "note": ""
  },
  {
   "property": "C38",
   "status": "partial",
   "theorems": [
    "WTM.c38_ion_exchange",
    "WTM.c38_tests",
    "WTM.c38_gac",
    "WTM.c38_gac_tests",
    "WTM.c38_gac_false",
    "WTM.c38_gac_base_false",
    "WTM.c38_gac_competitive_partial"
   ],
   "note": "Proved for ion exchange and for the carbon column with compounds one by one (the default). False of the competitive carbon analysis: the stored result is the last test, and the bands stay at the base run when chained assignments are lost (counterexamples proved); c38_gac_competitive_partial says exactly what is stored."
  },
  {
   "property": "C39",
   "status": "partial",
   "theorems": [
    "WTM.c39_false",
    "WTM.c39_partial",
    "WTM.c39_other"
   ],
   "note": "False of the code: the influent index and time multiplier are overwritten (counterexample proved). c39_partial says when they survive, c39_other that everything else does."
  },
  {
   "property": "C40",
   "status": "partial",
   "theorems": [
    "WTM.c40_no_effect",
    "WTM.c40_epor_is_ebed",
    "WTM.c40_false",
    "WTM.c40_partial",
    "WTM.c38_gac",
    "WTM.c40_gac_qn",
    "WTM.c40_gac_keywords",
    "WTM.c40_gac_mass",
    "WTM.c40_gac_fouled"
   ],
   "note": "False of the code: in ion exchange ds, kL and dp do nothing and epor perturbs the bed void fraction; in the carbon column qn does nothing and in fouled water every test divides the surface diffusivity by 1e10 again (all proved). c40_partial and c38_gac cover the keywords that work."
  },
  {
   "property": "C41",
   "status": "proved",
   "theorems": [
    "WTM.c41_floor",
    "WTM.c41_antitone",
    "WTM.c41_used",
    "WTM.c41_fouling_k",
    "WTM.c41_unlisted"
   ],
   "note": ""
  },
  {
   "property": "C42",
   "status": "partial",
   "theorems": [
    "WTM.c42_false",
    "WTM.c42_partial",
    "WTM.c42_used"
   ],
   "note": "False of the code for the classes with b1+b2 other than 1, such as pesticides (counterexample proved). c42_partial: the multiplier is constant, equal to b1+b2."
  },
  {
   "property": "C43",
   "status": "proved",
   "theorems": [
    "WTM.c43_start",
    "WTM.c43_full",
    "WTM.c43_classes"
   ],
   "note": ""
  },
  {
   "property": "C44",
   "status": "proved",
   "theorems": [
    "WTM.c44_ge_one",
    "WTM.c44_monotone"
   ],
   "note": ""
  },
  {
   "property": "C45",
   "status": "partial",
   "theorems": [
    "WTM.c45_false",
    "WTM.c45_partial",
    "WTM.c45_close"
   ],
   "note": "False of the code on a narrow window of times (counterexample proved); c45_partial gives the exact set of times where they agree, c45_close bounds the difference."
  },
  {
   "property": "C46",
   "status": "proved",
   "theorems": [
    "WTM.c46_capacity",
    "WTM.c46_same",
    "WTM.c46_twice",
    "WTM.c46_pos"
   ],
   "note": ""
  },
  {
   "property": "C47",
   "status": "proved",
   "theorems": [
    "WTM.c47_molar",
    "WTM.c47_ecm",
    "WTM.c47_ecm_molar"
   ],
   "note": ""
  },
  {
   "property": "C48",
   "status": "proved",
   "theorems": [
    "WTM.c48_nonneg",
    "WTM.c48_empty",
    "WTM.c48_single"
   ],
   "note": ""
  },
  {
   "property": "C49",
   "status": "proved",
   "theorems": [
    "WTM.c49_bead",
    "WTM.c49_exchange",
    "WTM.c49_inlet"
   ],
   "note": ""
  },
  {
   "property": "C50",
   "status": "proved",
   "theorems": [
    "WTM.c50_safe",
    "WTM.c50_positions",
    "WTM.c50_injective"
   ],
   "note": ""
  },
  {
   "property": "C56",
   "status": "proved",
   "theorems": [
    "WTM.c56_nonneg",
    "WTM.c56_unchanged",
    "WTM.c56_between",
    "WTM.c56_locator"
   ],
   "note": ""
  },
  {
   "property": "C57",
   "status": "partial",
   "theorems": [
    "WTM.c57_false",
    "WTM.c57_partial",
    "WTM.c57_saved"
   ],
   "note": "False of the code: in fouled water a supplied ds is divided by 1e10 (counterexample proved)."
  },
  {
   "property": "C85",
   "status": "partial",
   "theorems": [
    "WTM.c85_days_fail",
    "WTM.c85_false",
    "WTM.c85_partial"
   ],
   "note": "False of the code: tables in days raise ValueError (proved); holds for hours with whole durations."
  },
  {
   "property": "C87",
   "status": "proved",
   "theorems": [
    "WTM.c87_iast",
    "WTM.cpore_eq"
   ],
   "note": ""
  },
  {
   "property": "C88",
   "status": "partial",
   "theorems": [
    "WTM.c88_partial",
    "WTM.c88_fouled",
    "WTM.c88_false"
   ],
   "note": "False of the code in organic-free water with tortuosity other than 1 (counterexample proved)."
  },
  {
   "property": "C89",
   "status": "proved",
   "theorems": [
    "WTM.c89_simple",
    "WTM.c89_quotient",
    "WTM.c89_capacity",
    "WTM.c89_pure",
    "WTM.c89_all"
   ],
   "note": ""
  },
  {
   "property": "C90",
   "status": "proved",
   "theorems": [
    "WTM.c90_hsdm",
    "WTM.c90_psdm",
    "WTM.c90_batch_hsdm",
    "WTM.c90_batch_psdm",
    "WTM.c90_film_hsdm",
    "WTM.c90_film_psdm"
   ],
   "note": ""
  },
  {
   "property": "C91",
   "status": "partial",
   "theorems": [
    "WTM.c91_false",
    "WTM.c91_partial"
   ],
   "note": "False of the code when there are pores: pore water is counted twice (the source calls it an approximation). Counterexample proved; c91_partial gives the exact excess and the pore-free case."
  },
  {
   "property": "C92",
   "status": "partial",
   "theorems": [
    "WTM.c92_partition",
    "WTM.c92_liquid_partial",
    "WTM.c92_uptake",
    "WTM.c92_bead_partial",
    "WTM.c92_factor",
    "WTM.c92_false",
    "WTM.c92_bead_false"
   ],
   "note": "False of the code: film and diffusion terms carry the factor dgt/(1+dgt) because dgt is used for dg1 (counterexamples proved). The partial theorems hold with exactly that factor, the partition and conservation parts hold in full."
  },
  {
   "property": "C93",
   "status": "partial",
   "theorems": [
    "WTM.c93_ends",
    "WTM.c93_between",
    "WTM.c93_in_range",
    "WTM.c93_sample",
    "WTM.c93_partial",
    "WTM.c93_false"
   ],
   "note": "Proved for tables whose times are whole minutes; false for rows at fractions of a minute (counterexample proved)."
  },
  {
   "property": "C51",
   "status": "proved",
   "theorems": [
    "WTM.c51_restored",
    "WTM.c51_clean",
    "WTM.c51_again",
    "WTM.c51_sequence",
    "WTM.c51_exception"
   ],
   "note": ""
  },
  {
   "property": "C53",
   "status": "partial",
   "theorems": [
    "WTM.c53_smart",
    "WTM.c53_smart_returns",
    "WTM.c53_smart_flag",
    "WTM.c53_run_all_false",
    "WTM.c53_run_all_last",
    "WTM.c53_run_all_partial",
    "WTM.c53_run_all_one",
    "WTM.c53_mp_last"
   ],
   "note": "run_all_smart: proved. run_all: false of the code for several compounds (only the last compound's fit survives; counterexample proved), proved for one compound."
  },
  {
   "property": "C54",
   "status": "proved",
   "theorems": [
    "WTM.c54_search",
    "WTM.c54_grids",
    "WTM.c54_zero_width",
    "WTM.c54_coarse_step"
   ],
   "note": ""
  },
  {
   "property": "C55",
   "status": "proved",
   "theorems": [
    "WTM.c55_hydraulics",
    "WTM.c55_void",
    "WTM.c55_reset"
   ],
   "note": ""
  },
  {
   "property": "C83",
   "status": "proved",
   "theorems": [
    "WTM.c83_ssq",
    "WTM.c83_sum",
    "WTM.c83_kfit",
    "WTM.c83_mult"
   ],
   "note": ""
  },
  {
   "property": "C52",
   "status": "proved",
   "theorems": [
    "WTM.c52_restored",
    "WTM.c52_clean",
    "WTM.c52_exception",
    "WTM.c52_again",
    "WTM.c52_returns"
   ],
   "note": ""
  },
  {
   "property": "C58",
   "status": "proved",
   "theorems": [
    "WTM.c58_nonneg",
    "WTM.c58_sum",
    "WTM.c58_groups"
   ],
   "note": ""
  },
  {
   "property": "C59",
   "status": "partial",
   "theorems": [
    "WTM.c59_partial",
    "WTM.c59_curve",
    "WTM.c59_false",
    "WTM.c59_many_groups"
   ],
   "note": "False of the code when even a one-day interval misses the target (1 day and a zero curve are returned) and when more than five age groups run out of days; counterexamples proved, the rest proved."
  },
  {
   "property": "C60",
   "status": "proved",
   "theorems": [
    "WTM.c60_compound",
    "WTM.c60_hazard",
    "WTM.c60_daily"
   ],
   "note": ""
  },
  {
   "property": "C61",
   "status": "proved",
   "theorems": [
    "WTM.c61_bracket"
   ],
   "note": ""
  },
  {
   "property": "C62",
   "status": "partial",
   "theorems": [
    "WTM.c62_partial",
    "WTM.c62_false",
    "WTM.c62_missing_pfbs",
    "WTM.c62_processed"
   ],
   "note": "False of the code: PFBS is not counted in the hazard index and a table without PFBS raises KeyError; proved what is computed and that tables with PFOA, PFOS and PFBS are processed."
  },
  {
   "property": "C63",
   "status": "partial",
   "theorems": [
    "WTM.c63_partial",
    "WTM.c63_false",
    "WTM.c63_long"
   ],
   "note": "False of the code for contact times longer than the original (bed is sized to EBCT0^2/EBCT); proved for shorter ones, mass balance proved for all."
  },
  {
   "property": "C94",
   "status": "partial",
   "theorems": [
    "WTM.c94_values",
    "WTM.c94_specs_partial",
    "WTM.c94_specs_false"
   ],
   "note": "Values proved; the column specification is left as sized for the last contact time (counterexample proved)."
  },
  {
   "property": "C64",
   "status": "proved",
   "theorems": [
    "WTM.c64_scaling"
   ],
   "note": ""
  },
  {
   "property": "C65",
   "status": "partial",
   "theorems": [
    "WTM.c65_partial",
    "WTM.c65_false",
    "WTM.c65_column"
   ],
   "note": "False of the code: the list form is scaled by 0.1 instead of 10, so the column is designed for grains a hundred times smaller (proved exactly); column diameter with units is right."
  },
  {
   "property": "C66",
   "status": "proved",
   "theorems": [
    "WTM.c66_same",
    "WTM.c66_gpm",
    "WTM.c66_meaning"
   ],
   "note": ""
  },
  {
   "property": "C67",
   "status": "proved",
   "theorems": [
    "WTM.c67_between",
    "WTM.c67_raises",
    "WTM.c67_order",
    "WTM.c67_decreasing"
   ],
   "note": ""
  },
  {
   "property": "C95",
   "status": "proved",
   "theorems": [
    "WTM.c95_length",
    "WTM.c95_flow",
    "WTM.c95_mass",
    "WTM.c95_time",
    "WTM.c95_loading",
    "WTM.c95_density"
   ],
   "note": ""
  },
  {
   "property": "C96",
   "status": "partial",
   "theorems": [
    "WTM.c96_partial",
    "WTM.c96_false",
    "WTM.c96_effect"
   ],
   "note": "False of the code: the list form is stored in cm, not mm (proved exactly, with the effect on the design)."
  },
  {
   "property": "C68",
   "status": "proved",
   "theorems": [
    "WTM.c68_all",
    "WTM.c68_zone",
    "WTM.c68_single",
    "WTM.c68_agree",
    "WTM.c68_run"
   ],
   "note": ""
  },
  {
   "property": "C69",
   "status": "proved",
   "theorems": [
    "WTM.c69_balance",
    "WTM.c69_first"
   ],
   "note": ""
  },
  {
   "property": "C97",
   "status": "proved",
   "theorems": [
    "WTM.c97_sorted",
    "WTM.c97_before",
    "WTM.c97_between",
    "WTM.c97_after"
   ],
   "note": ""
  },
  {
   "property": "C98",
   "status": "proved",
   "theorems": [
    "WTM.c98_jump",
    "WTM.c98_front",
    "WTM.c98_speed",
    "WTM.c98_together"
   ],
   "note": "Assumes the root finder returns roots (the code does not check) and, for the speeds, positive loadings."
  },
  {
   "property": "C99",
   "status": "proved",
   "theorems": [
    "WTM.c99_days",
    "WTM.c99_default",
    "WTM.c99_bvf",
    "WTM.c99_usage",
    "WTM.c99_units",
    "WTM.c99_sstc"
   ],
   "note": ""
  },
  {
   "property": "C100",
   "status": "partial",
   "theorems": [
    "WTM.c100_partial",
    "WTM.c100_false"
   ],
   "note": "False of the code: the two errors are multiplied, so agreement of either the days or the peaks scores zero (proved exactly)."
  },
  {
   "property": "C101",
   "status": "partial",
   "theorems": [
    "WTM.c101_partial",
    "WTM.c101_false"
   ],
   "note": "False of the code: the object keeps the last trial (proved)."
  },
  {
   "property": "C70",
   "status": "partial",
   "theorems": [
    "WTM.c70_partial",
    "WTM.c70_false",
    "WTM.c70_compounds",
    "WTM.c70_error"
   ],
   "note": "False of the code: 'gac-iex' runs nothing, and passing compounds to a mixed configuration is a TypeError (both proved); the other spellings are proved in any letter case."
  },
  {
   "property": "C71",
   "status": "partial",
   "theorems": [
    "WTM.c71_partial",
    "WTM.c71_false"
   ],
   "note": "False of the code: a number raises TypeError and a list is stored whole; only a tuple works, and only if chained assignment reaches the table."
  },
  {
   "property": "C72",
   "status": "partial",
   "theorems": [
    "WTM.c72_partial",
    "WTM.c72_false",
    "WTM.c72_gac",
    "WTM.c72_ix"
   ],
   "note": "False of the code: true exactly for intervals of ten days or more; shorter ones end in an error (proved)."
  },
  {
   "property": "C73",
   "status": "partial",
   "theorems": [
    "WTM.c73_partial",
    "WTM.c73_false"
   ],
   "note": "False of the code only at the upper threshold, where no factor is applied."
  },
  {
   "property": "C102",
   "status": "partial",
   "theorems": [
    "WTM.c102_partial",
    "WTM.c102_short",
    "WTM.c102_false",
    "WTM.c102_gac"
   ],
   "note": "False of the code: other accepted units raise KeyError; exact for the six listed. 'use gac' depends on chained assignment reaching the table."
  },
  {
   "property": "C103",
   "status": "proved",
   "theorems": [
    "WTM.c103_gac",
    "WTM.c103_ix",
    "WTM.c103_steady"
   ],
   "note": ""
  },
  {
   "property": "C104",
   "status": "partial",
   "theorems": [
    "WTM.c104_partial",
    "WTM.c104_false"
   ],
   "note": "False of the code for shared compounds that were not asked for; proved for the others."
  },
  {
   "property": "C105",
   "status": "partial",
   "theorems": [
    "WTM.c105_partial",
    "WTM.c105_mean",
    "WTM.c105_false"
   ],
   "note": "False of the code: the influent table of the last pass is left in the object."
  },
  {
   "property": "C106",
   "status": "proved",
   "theorems": [
    "WTM.c106_names",
    "WTM.c106_value",
    "WTM.c106_others",
    "WTM.c106_twice"
   ],
   "note": ""
  },
  {
   "property": "C74",
   "status": "proved",
   "theorems": [
    "WTM.c74_rate",
    "WTM.c74_solutions",
    "WTM.c74_schemes",
    "WTM.c74_weights"
   ],
   "note": ""
  },
  {
   "property": "C75",
   "status": "partial",
   "theorems": [
    "WTM.c75_partial",
    "WTM.c75_same",
    "WTM.c75_changed",
    "WTM.c75_hrt",
    "WTM.c75_sol2",
    "WTM.c75_false"
   ],
   "note": "False of the code: after a study the derived rows and epsilon are those of the last dose, so the next run is too, until the derived rows are recomputed."
  },
  {
   "property": "C76",
   "status": "partial",
   "theorems": [
    "WTM.c76_partial",
    "WTM.c76_proportional",
    "WTM.c76_false"
   ],
   "note": "False of the code: the isotherm is evaluated at the concentration relative to the influent, so the loading is off by C0^(1-1/n) and the fraction removed does not depend on the influent concentration."
  },
  {
   "property": "C77",
   "status": "proved",
   "theorems": [
    "WTM.c77_start",
    "WTM.c77_ode",
    "WTM.c77_monotone",
    "WTM.c77_limit",
    "WTM.c77_steady"
   ],
   "note": ""
  },
  {
   "property": "C78",
   "status": "proved",
   "theorems": [
    "WTM.c78_fraction"
   ],
   "note": ""
  },
  {
   "property": "C79",
   "status": "proved",
   "theorems": [
    "WTM.c79_reached",
    "WTM.c79_ends",
    "WTM.c79_study"
   ],
   "note": ""
  },
  {
   "property": "C80",
   "status": "partial",
   "theorems": [
    "WTM.c80_partial",
    "WTM.c80_both",
    "WTM.c80_height",
    "WTM.c80_length",
    "WTM.c80_negative",
    "WTM.c80_no_length",
    "WTM.c80_false"
   ],
   "note": "False of the code: a length row left out raises AttributeError even when volume and height are stated. A length that is not a number works, but a stated aspect ratio is lost."
  },
  {
   "property": "C81",
   "status": "proved",
   "theorems": [
    "WTM.c81_bracket",
    "WTM.c81_increasing"
   ],
   "note": "For the first 100000 roots; the code asks for 500."
  },
  {
   "property": "C107",
   "status": "partial",
   "theorems": [
    "WTM.c107_partial",
    "WTM.c107_no_flow",
    "WTM.c107_no_length",
    "WTM.c107_hidden",
    "WTM.c107_false"
   ],
   "note": "False of the code: a missing length or flow raises AttributeError, and a length that is not a number hides another missing input."
  },
  {
   "property": "C108",
   "status": "proved",
   "theorems": [
    "WTM.c108_time",
    "WTM.c108_length",
    "WTM.c108_length_other",
    "WTM.c108_volume",
    "WTM.c108_flow",
    "WTM.c108_conc"
   ],
   "note": ""
  },
  {
   "property": "C109",
   "status": "proved",
   "theorems": [
    "WTM.c109_doses",
    "WTM.c109_analyze"
   ],
   "note": ""
  },
  {
   "property": "C110",
   "status": "partial",
   "theorems": [
    "WTM.c110_partial",
    "WTM.c110_false"
   ],
   "note": "False of the code: epsilon uses the density of water, so the carbon modelled is the dose times carbon density over water density."
  },
  {
   "property": "C111",
   "status": "partial",
   "theorems": [
    "WTM.c111_partial",
    "WTM.c111_false"
   ],
   "note": "False of the code: the unit is lowered before the lookup, so 'ug/L' raises KeyError and leaves the duration changed."
  },
  {
   "property": "C112",
   "status": "proved",
   "theorems": [
    "WTM.c112_fraction",
    "WTM.c112_curve"
   ],
   "note": ""
  },
  {
   "property": "C113",
   "status": "proved",
   "theorems": [
    "WTM.c113_stationary",
    "WTM.c113_matrix",
    "WTM.c113_initial"
   ],
   "note": ""
  },
  {
   "property": "C114",
   "status": "proved",
   "theorems": [
    "WTM.c114_capacity"
   ],
   "note": ""
  },
  {
   "property": "C115",
   "status": "proved",
   "theorems": [
    "WTM.c115_balance",
    "WTM.c115_limit"
   ],
   "note": ""
  },
  {
   "property": "C117",
   "status": "partial",
   "theorems": [
    "WTM.c117_partial",
    "WTM.c117_unknown",
    "WTM.c117_false"
   ],
   "note": "False of the code: a quantity in an unknown unit is loaded as zero without an error, and pounds per cubic foot are off by 2e-7. Exact for all other units of the tables."
  },
  {
   "property": "C118",
   "status": "partial",
   "theorems": [
    "WTM.c118_partial",
    "WTM.c118_wrong",
    "WTM.c118_false"
   ],
   "note": "False of the code: milligrams are read as nanograms, and 'hours' as minutes labelled days."
  },
  {
   "property": "C119",
   "status": "partial",
   "theorems": [
    "WTM.c119_partial",
    "WTM.c119_index",
    "WTM.c119_zero",
    "WTM.c119_tidy",
    "WTM.c119_negative",
    "WTM.c119_false"
   ],
   "note": "False of the code: samples at a time where another compound is missing are overwritten by interpolation, a stream not sampled at zero has no value there, a sheet without time zero starts at zero, and a missing last sample is extrapolated, below zero if the curve falls. Proved when each time is complete or empty and zero is complete, apart from the sign."
  },
  {
   "property": "C86",
   "status": "partial",
   "theorems": [
    "WTM.c86_partial",
    "WTM.c86_ko",
    "WTM.c86_ohashi",
    "WTM.c86_schmidt",
    "WTM.c86_false"
   ],
   "note": "False of the code: 'Ohashi et al' returns a tuple (a trailing comma) and its values drop at both changes of range, and 'Ko et al' falls with the flow. Proved for the other seven and for unknown names. The columns use 'Chern and Chien'."
  },
  {
   "property": "C120",
   "status": "proved",
   "theorems": [
    "WTM.c120_viscosity",
    "WTM.c120_densest",
    "WTM.c120_density"
   ],
   "note": ""
  },
  {
   "property": "C121",
   "status": "proved",
   "theorems": [
    "WTM.c121_diffusivity",
    "WTM.c121_film",
    "WTM.c121_column",
    "WTM.c121_flow",
    "WTM.c121_warnings"
   ],
   "note": ""
  },
  {
   "property": "C122",
   "status": "proved",
   "theorems": [
    "WTM.c122_hayduk",
    "WTM.c122_wilke",
    "WTM.c122_stokes",
    "WTM.c122_values"
   ],
   "note": ""
  },
  {
   "property": "C116",
   "status": "proved",
   "theorems": [
    "WTM.c116_bead",
    "WTM.c116_profile",
    "WTM.c116_surface",
    "WTM.c116_pore",
    "WTM.c116_output"
   ],
   "note": ""
  },
  {
   "property": "C123",
   "status": "proved",
   "theorems": [
    "WTM.c123_balance",
    "WTM.c123_average",
    "WTM.c123_freundlich",
    "WTM.c123_grid",
    "WTM.c123_signs"
   ],
   "note": ""
  },
  {
   "property": "C124",
   "status": "partial",
   "theorems": [
    "WTM.c124_partial",
    "WTM.c124_zero",
    "WTM.c124_late",
    "WTM.c124_false"
   ],
   "note": "False of the code: a crossing on day zero gives minus one, which is then replaced by the end of the data; one after day 2001 gives the last sample before day 2000. Proved for days 1 to 2001."
  },
  {
   "property": "C125",
   "status": "partial",
   "theorems": [
    "WTM.c125_partial",
    "WTM.c125_positive",
    "WTM.c125_false"
   ],
   "note": "False of the code: data over 2000 days with a crossing on day zero give the end of the data. Proved for data under 2000 days; positive for all data with a sample between 0 and 2000."
  },
  {
   "property": "C126",
   "status": "proved",
   "theorems": [
    "WTM.c126_time",
    "WTM.c126_unique",
    "WTM.c126_code",
    "WTM.c126_artificial"
   ],
   "note": ""
  },
  {
   "property": "C127",
   "status": "partial",
   "theorems": [
    "WTM.c127_partial",
    "WTM.c127_row",
    "WTM.c127_false"
   ],
   "note": "False of the code: with artificial_point the estimate appends a row to the caller's table, whatever its time. Proved without it, with several compounds, or with a crossing in the data."
  },
  {
   "property": "C128",
   "status": "proved",
   "theorems": [
    "WTM.c128_between",
    "WTM.c128_classes",
    "WTM.c128_longer"
   ],
   "note": ""
  },
  {
   "property": "C129",
   "status": "partial",
   "theorems": [
    "WTM.c129_partial",
    "WTM.c129_returns",
    "WTM.c129_factors",
    "WTM.c129_fresh",
    "WTM.c129_false"
   ],
   "note": "False of the code: the k_data table that the class builds has no rows MolarVol and MW, so the fit ends in KeyError with the column restricted to one compound. Proved for tables with these rows."
  },
  {
   "property": "C130",
   "status": "partial",
   "theorems": [
    "WTM.c130_partial",
    "WTM.c130_base",
    "WTM.c130_fouled",
    "WTM.c130_false"
   ],
   "note": "False of the code: ds_base is the correlation times tortuosity times the molar K; in fouled water a trial value is divided by 1e10 before use."
  },
  {
   "property": "C131",
   "status": "partial",
   "theorems": [
    "WTM.c131_partial",
    "WTM.c131_ignored",
    "WTM.c131_missing",
    "WTM.c131_false"
   ],
   "note": "False of the code: the fit ignores the range it is given, so the stored coefficients do not matter; proved that the rotation is that of the refitted curves and the column is restored when it returns."
  },
  {
   "property": "C132",
   "status": "partial",
   "theorems": [
    "WTM.c132_partial",
    "WTM.c132_small",
    "WTM.c132_ties",
    "WTM.c132_false"
   ],
   "note": "False of the code: two equal smallest entries raise TypeError. Proved for up to 40 cells with one smallest entry; for larger tables that the answer is the smallest entry or one at the bottom of a block that lies below the tenth percentile."
  },
  {
   "property": "C133",
   "status": "partial",
   "theorems": [
    "WTM.c133_partial",
    "WTM.c133_stale",
    "WTM.c133_unknown",
    "WTM.c133_false"
   ],
   "note": "False of the code: the first call adds a column q to the caller's table and later calls use it whatever C0 and mass are. Proved for tables without that column; curve_fit is assumed to minimize."
  },
  {
   "property": "C134",
   "status": "proved",
   "theorems": [
    "WTM.c134_langmuir",
    "WTM.c134_freundlich",
    "WTM.c134_redlich",
    "WTM.c134_increasing"
   ],
   "note": ""
  },
  {
   "property": "C135",
   "status": "proved",
   "theorems": [
    "WTM.c135_bands",
    "WTM.c135_mean",
    "WTM.c135_exact"
   ],
   "note": ""
  },
  {
   "property": "C136",
   "status": "proved",
   "theorems": [
    "WTM.c136_restart",
    "WTM.c136_table"
   ],
   "note": "Exact solutions of the modelled rates; the integrator's error after a restart is not covered. c136_table is for times after the restart time and strictly increasing influent times."
  },
  {
   "property": "C137",
   "status": "partial",
   "theorems": [
    "WTM.c137_partial",
    "WTM.c137_mixed",
    "WTM.c137_stops",
    "WTM.c137_false"
   ],
   "note": "False of the code. The coefficients Ds and Dp are recycled along the bead points instead of the ions, so bead point k of counter-ion i is computed with the coefficient of counter-ion (k + nr*i) mod p (c137_mixed); with two ions, with one monovalent counter-ion beside a divalent one, or with two divalent ions the function stops (c137_stops). Proved equal for two or more counter-ions with common coefficients (c137_partial)."
  },
  {
   "property": "C138",
   "status": "proved",
   "theorems": [
    "WTM.c138_totals",
    "WTM.c138_check",
    "WTM.c138_zeroed"
   ],
   "note": ""
  },
  {
   "property": "C139",
   "status": "proved",
   "theorems": [
    "WTM.c139_units",
    "WTM.c139_speed",
    "WTM.c139_axis",
    "WTM.c139_bedvolumes",
    "WTM.c139_hours"
   ],
   "note": "A month is 30 days and a year 365.25 days. gpm/ft^2 is off by less than 1e-11 (rounded constant)."
  },
  {
   "property": "C140",
   "status": "partial",
   "theorems": [
    "WTM.c140_partial",
    "WTM.c140_mgd",
    "WTM.c140_false"
   ],
   "note": "False of the code for flows in mgd: the factor lacks the minutes of a day, so the model runs with 1440 times the flow (c140_mgd). Proved for all other units (c140_partial). The pound is off by 1e-6."
  },
  {
   "property": "C141",
   "status": "partial",
   "theorems": [
    "WTM.c141_partial",
    "WTM.c141_hours",
    "WTM.c141_years",
    "WTM.c141_linear",
    "WTM.c141_false"
   ],
   "note": "False of the code: tables in hours are plotted as if in days (c141_hours), a year has 360 days (c141_years), and bed volumes from a linear velocity are 60 times too small (c141_linear). Proved for tables in days plotted in days, hours, months, or in bed volumes from a flow not in mgd (c141_partial)."
  },
  {
   "property": "C142",
   "status": "proved",
   "theorems": [
    "WTM.c142_conc"
   ],
   "note": ""
  },
  {
   "property": "C143",
   "status": "partial",
   "theorems": [
    "WTM.c143_partial",
    "WTM.c143_false"
   ],
   "note": "False of the code: columns are matched by position. Proved when both tables have the same order (c143_partial)."
  },
  {
   "property": "C144",
   "status": "partial",
   "theorems": [
    "WTM.c144_position",
    "WTM.c144_partial",
    "WTM.c144_mismatch",
    "WTM.c144_false"
   ],
   "note": "False of the code: names are compared but columns are taken by position, so ion number k gets column number k, converted for the ion that column is named after (c144_position). Proved when the order is the same (c144_partial); mismatching names stop the run (c144_mismatch)."
  },
  {
   "property": "C145",
   "status": "proved",
   "theorems": [
    "WTM.c145_back",
    "WTM.c145_meqL",
    "WTM.c145_cc0"
   ],
   "note": "For the units of the manual. meq/L, which the tables of the code also know, is read as mg on the way in (c145_meqL)."
  },
  {
   "property": "C146",
   "status": "proved",
   "theorems": [
    "WTM.c146_fractions",
    "WTM.c146_equilibrium",
    "WTM.c146_total"
   ],
   "note": ""
  },
  {
   "property": "C147",
   "status": "partial",
   "theorems": [
    "WTM.c147_partial",
    "WTM.c147_units",
    "WTM.c147_false",
    "WTM.c147_python",
    "WTM.c147_water"
   ],
   "note": "False of the code: units are ignored, and so is a flow entered in place of the velocity (c147_units). Proved for cm and cm/s (c147_partial). Density and viscosity are those of the code."
  },
  {
   "property": "C148",
   "status": "partial",
   "theorems": [
    "WTM.c148_partial",
    "WTM.c148_once",
    "WTM.c148_all",
    "WTM.c148_false"
   ],
   "note": "False of the code: the first n curves are taken as counter-ions, n being how many of the four are present. Proved when they come first and are not alone (c148_partial). In any order every curve is in the table of one plot, once and whole (c148_once), but C266 shows that the plots then leave out the misplaced ones; with counter-ions only, the table of the other plot has an empty row and one point of the last curve (c148_all)."
  },
  {
   "property": "C149",
   "status": "partial",
   "theorems": [
    "WTM.c149_daily",
    "WTM.c149_whole",
    "WTM.c149_partial",
    "WTM.c149_false"
   ],
   "note": "False of the code: the table is resampled at whole times first, so samples between them are lost; a peak at noon of a day vanishes (c149_false). Proved for tables with whole times (c149_partial). For all tables: exact at whole times, straight between them (c149_daily, c149_whole)."
  },
  {
   "property": "C150",
   "status": "proved",
   "theorems": [
    "WTM.c150_output",
    "WTM.c150_run",
    "WTM.c150_returns"
   ],
   "note": "The last row is at most a fifth above and a twentieth below the last influent time."
  },
  {
   "property": "C151",
   "status": "partial",
   "theorems": [
    "WTM.c151_partial",
    "WTM.c151_text",
    "WTM.c151_false"
   ],
   "note": "False of the code: a text in the row hides all numbers after it (c151_text). Proved for rows of numbers (c151_partial)."
  },
  {
   "property": "C152",
   "status": "partial",
   "theorems": [
    "WTM.c152_keywords",
    "WTM.c152_table",
    "WTM.c152_unchecked",
    "WTM.c152_masstransfer",
    "WTM.c152_false"
   ],
   "note": "False of the code in the last part on units: a unit not known is taken as minutes, litres or micrograms without notice (c152_unchecked). The rest is proved; a table that names a unit must have the factor too (c152_table)."
  },
  {
   "property": "C153",
   "status": "partial",
   "theorems": [
    "WTM.c153_partial",
    "WTM.c153_failed",
    "WTM.c153_false"
   ],
   "note": "False of the code: after an exception the result holds an isotherm of ones or twos for a compound called 0 (c153_failed). Proved when nothing fails (c153_partial)."
  },
  {
   "property": "C154",
   "status": "proved",
   "theorems": [
    "WTM.c154_radial_same",
    "WTM.c154_axial_same",
    "WTM.c154_radial",
    "WTM.c154_axial",
    "WTM.c154_single"
   ],
   "note": "The zeros of the package orthopolynom are a parameter, with orthogonality as hypothesis. A single radial point is an error (c154_single)."
  },
  {
   "property": "C155",
   "status": "proved",
   "theorems": [
    "WTM.c155_weights_single",
    "WTM.c155_weights",
    "WTM.c155_rate",
    "WTM.c155_solutions",
    "WTM.c155_step",
    "WTM.c155_effluent"
   ],
   "note": "The weights are those of Gauss quadrature on the zeros; that the zeros exist is legendre_exists."
  },
  {
   "property": "C156",
   "status": "proved",
   "theorems": [
    "WTM.c156_rate",
    "WTM.c156_seconds",
    "WTM.c156_solutions",
    "WTM.c156_step"
   ],
   "note": "Weights as in C155; the matrices of PSDM are the same by C18."
  },
  {
   "property": "C157",
   "status": "proved",
   "theorems": [
    "WTM.c157_tracer",
    "WTM.differentiates_single",
    "WTM.differentiates_elements"
   ],
   "note": ""
  },
  {
   "property": "C158",
   "status": "partial",
   "theorems": [
    "WTM.c158_false",
    "WTM.c158_partial"
   ],
   "note": "Missing: Biot numbers up to 1 (and those above by less than 4(n+1)/500000), where the slowest mode can be below the first bracket; more than 901 roots; a mode exactly at the point where the first bracket is split. brentq is a parameter: it returns a zero in the bracket when the ends differ in sign, an error otherwise."
  },
  {
   "property": "C159",
   "status": "proved",
   "theorems": [
    "WTM.c159_fraction",
    "WTM.c159_missed",
    "WTM.c159_batch",
    "WTM.c159_crank",
    "WTM.c159_curve"
   ],
   "note": "c159_crank also strengthens C112 to an uptake that is never negative."
  },
  {
   "property": "C160",
   "status": "partial",
   "theorems": [
    "WTM.c160_false",
    "WTM.c160_partial",
    "WTM.c160_position"
   ],
   "note": "Missing: any number of compounds other than two; with one every second value is NA, with more the wrong influent is used."
  },
  {
   "property": "C161",
   "status": "proved",
   "theorems": [
    "WTM.c161_shown",
    "WTM.c161_cc0",
    "WTM.c161_menus"
   ],
   "note": ""
  },
  {
   "property": "C162",
   "status": "partial",
   "theorems": [
    "WTM.c162_false",
    "WTM.c162_partial",
    "WTM.c162_run",
    "WTM.c162_geometry",
    "WTM.c162_menus"
   ],
   "note": "Missing: the volume from the dimensions; the format offered is not the one PAC.py knows, so the stated volume is used whatever is selected."
  },
  {
   "property": "C163",
   "status": "partial",
   "theorems": [
    "WTM.c163_false",
    "WTM.c163_partial",
    "WTM.c163_doses"
   ],
   "note": "Missing: equal ends of the slider, an exception."
  },
  {
   "property": "C164",
   "status": "partial",
   "theorems": [
    "WTM.c164_false",
    "WTM.c164_partial",
    "WTM.c164_cells"
   ],
   "note": "Missing: compounds in other units than those selected; their influent is read in the selected unit."
  },
  {
   "property": "C165",
   "status": "partial",
   "theorems": [
    "WTM.c165_false",
    "WTM.c165_partial",
    "WTM.c165_latest"
   ],
   "note": "Missing: sheets that an earlier upload had; they stay in use although default values are announced."
  },
  {
   "property": "C166",
   "status": "partial",
   "theorems": [
    "WTM.c166_false",
    "WTM.c166_partial",
    "WTM.c166_rounded"
   ],
   "note": "Missing: length, height, volume and format are not loaded; flow and radius are rounded to four digits when no value of their table is a word."
  },
  {
   "property": "C167",
   "status": "partial",
   "theorems": [
    "WTM.c167_false",
    "WTM.c167_partial"
   ],
   "note": "Missing: values typed into the form, which are not saved."
  },
  {
   "property": "C168",
   "status": "partial",
   "theorems": [
    "WTM.c168_false",
    "WTM.c168_partial",
    "WTM.c168_rows",
    "WTM.c168_wrong",
    "WTM.c168_influent",
    "WTM.c168_curves",
    "WTM.c168_conc",
    "WTM.c168_single"
   ],
   "note": "Missing: two compounds or more, whose values go to points of other compounds and times; computed curves and points in units of concentration are right (c168_curves, c168_conc)."
  },
  {
   "property": "C169",
   "status": "proved",
   "theorems": [
    "WTM.c169_roundtrip",
    "WTM.c169_twice"
   ],
   "note": ""
  },
  {
   "property": "C170",
   "status": "partial",
   "theorems": [
    "WTM.c170_false",
    "WTM.c170_partial",
    "WTM.c170_velocity",
    "WTM.c170_sheet",
    "WTM.c170_missing"
   ],
   "note": "Missing: columns given by their velocity, which is not saved."
  },
  {
   "property": "C171",
   "status": "partial",
   "theorems": [
    "WTM.c171_false",
    "WTM.c171_partial",
    "WTM.c171_rejects"
   ],
   "note": "Missing: an apparent density above the particle density; the check uses the one, the model the other."
  },
  {
   "property": "C172",
   "status": "partial",
   "theorems": [
    "WTM.c172_false",
    "WTM.c172_partial",
    "WTM.c172_zeros",
    "WTM.c172_edits"
   ],
   "note": "Missing: changes since the upload are lost; before a fit the file of isotherms is overwritten by zeros."
  },
  {
   "property": "C173",
   "status": "partial",
   "theorems": [
    "WTM.c173_false",
    "WTM.c173_partial",
    "WTM.c173_results",
    "WTM.c173_drawn"
   ],
   "note": "Missing: changes of flow, column or units after the run, which rescale the results on the screen."
  },
  {
   "property": "C174",
   "status": "partial",
   "theorems": [
    "WTM.c174_false",
    "WTM.c174_partial",
    "WTM.c174_edit",
    "WTM.c174_run",
    "WTM.c174_fit"
   ],
   "note": "Missing: the numbers of collocation points, always 7 and 12."
  },
  {
   "property": "C175",
   "status": "partial",
   "theorems": [
    "WTM.c175_false",
    "WTM.c175_partial",
    "WTM.c175_latest",
    "WTM.c175_screen"
   ],
   "note": "Missing: sheets that an earlier upload had; they stay in use."
  },
  {
   "property": "C176",
   "status": "partial",
   "theorems": [
    "WTM.c176_false",
    "WTM.c176_partial",
    "WTM.c176_nothing",
    "WTM.c176_output",
    "WTM.c176_wrong"
   ],
   "note": "Missing: ion sheets that are not PFOA in ng and all other ions in meq; without PFOA nothing can be saved; the choice of output units always gives mg/L."
  },
  {
   "property": "C177",
   "status": "proved",
   "theorems": [
    "WTM.c177_roundtrip",
    "WTM.c177_settled",
    "WTM.c177_flow"
   ],
   "note": "For fields that hold any number. What the rounding of the fields does to it is in C271."
  },
  {
   "property": "C178",
   "status": "partial",
   "theorems": [
    "WTM.c178_false",
    "WTM.c178_partial",
    "WTM.c178_results",
    "WTM.c178_drawn",
    "WTM.c178_relabel",
    "WTM.c178_checks",
    "WTM.c178_failed"
   ],
   "note": "Missing: a run that is refused or fails after a change of the ion sheet puts the new names over the old curves."
  },
  {
   "property": "C179",
   "status": "partial",
   "theorems": [
    "WTM.c179_false",
    "WTM.c179_partial",
    "WTM.c179_missing",
    "WTM.c179_blank",
    "WTM.c179_shown",
    "WTM.c179_single",
    "WTM.c179_order"
   ],
   "note": "Missing: tables without one of the ions, which empty the plot; for relative concentrations another order of columns; a single row."
  },
  {
   "property": "C180",
   "status": "proved",
   "theorems": [
    "WTM.c180_influent",
    "WTM.c180_one"
   ],
   "note": ""
  },
  {
   "property": "C181",
   "status": "proved",
   "theorems": [
    "WTM.c181_params",
    "WTM.c181_transport"
   ],
   "note": ""
  },
  {
   "property": "C182",
   "status": "partial",
   "theorems": [
    "WTM.c182_false",
    "WTM.c182_partial",
    "WTM.c182_latest",
    "WTM.c182_screen"
   ],
   "note": "Missing: sheets that an earlier upload had; they stay in use."
  },
  {
   "property": "C183",
   "status": "partial",
   "theorems": [
    "WTM.c183_false",
    "WTM.c183_partial",
    "WTM.c183_chosen"
   ],
   "note": "Missing: isotherms from a list, where each row says 1/n = 1."
  },
  {
   "property": "C184",
   "status": "partial",
   "theorems": [
    "WTM.c184_false",
    "WTM.c184_partial",
    "WTM.c184_grid"
   ],
   "note": "Missing: the claim itself; instead all rows have the error and 1/n of the table of isotherms, and a loop fails unless that 1/n is in the grid."
  },
  {
   "property": "C185",
   "status": "partial",
   "theorems": [
    "WTM.c185_false",
    "WTM.c185_partial"
   ],
   "note": "Missing: 1/n in the last loop when the rounded upper bound exceeds the end of the original range."
  },
  {
   "property": "C186",
   "status": "partial",
   "theorems": [
    "WTM.c186_false",
    "WTM.c186_partial",
    "WTM.c186_reset",
    "WTM.c186_ions",
    "WTM.c186_text"
   ],
   "note": "Missing: with a workbook, reading its influent sheet resets the flag; properties given as a text."
  },
  {
   "property": "C187",
   "status": "partial",
   "theorems": [
    "WTM.c187_false",
    "WTM.c187_partial",
    "WTM.c187_raises"
   ],
   "note": "Missing: without a workbook an exception is raised instead; a workbook without ions; a good workbook."
  },
  {
   "property": "C188",
   "status": "partial",
   "theorems": [
    "WTM.c188_false",
    "WTM.c188_partial",
    "WTM.c188_never",
    "WTM.c188_column"
   ],
   "note": "Missing: without a workbook the resin sheets can never be written; a column given as a table, as by default, is never taken."
  },
  {
   "property": "C189",
   "status": "partial",
   "theorems": [
    "WTM.c189_false",
    "WTM.c189_partial",
    "WTM.c189_simulated",
    "WTM.c189_missing"
   ],
   "note": "Missing: other compounds in common or asked for; the union is taken."
  },
  {
   "property": "C190",
   "status": "partial",
   "theorems": [
    "WTM.c190_false",
    "WTM.c190_partial",
    "WTM.c190_rows"
   ],
   "note": "Missing: units of time other than hr and days."
  },
  {
   "property": "C191",
   "status": "proved",
   "theorems": [
    "WTM.c191_affine",
    "WTM.c191_limit",
    "WTM.c191_bound",
    "WTM.c191_pattern"
   ],
   "note": ""
  },
  {
   "property": "C192",
   "status": "partial",
   "theorems": [
    "WTM.c192_false",
    "WTM.c192_partial",
    "WTM.c192_chunks",
    "WTM.c192_optimising",
    "WTM.c192_returns",
    "WTM.c192_raise",
    "WTM.c192_undone"
   ],
   "note": "Missing: with ranges to search it never returns and stores K = 1; constants given through the ranges are replaced by 1."
  },
  {
   "property": "C193",
   "status": "partial",
   "theorems": [
    "WTM.c193_false",
    "WTM.c193_partial",
    "WTM.c193_chunks",
    "WTM.c193_title",
    "WTM.c193_flag",
    "WTM.c193_raise"
   ],
   "note": "Missing: without optimize_flag it raises at the first compound; when chained assignments do not reach the table the rows stay K."
  },
  {
   "property": "C194",
   "status": "partial",
   "theorems": [
    "WTM.c194_false",
    "WTM.c194_partial",
    "WTM.c194_missing"
   ],
   "note": "Missing: cells without a measurement are shown as zero."
  },
  {
   "property": "C195",
   "status": "partial",
   "theorems": [
    "WTM.c195_false",
    "WTM.c195_partial",
    "WTM.c195_shiny",
    "WTM.c195_unfilled",
    "WTM.c195_limit"
   ],
   "note": "Missing: measurements equal to a limit other than zero; when chained assignments do not reach the table gaps stay."
  },
  {
   "property": "C196",
   "status": "partial",
   "theorems": [
    "WTM.c196_false",
    "WTM.c196_partial",
    "WTM.c196_any",
    "WTM.c196_general"
   ],
   "note": "Missing: a table changed by the caller; only the first compound sees it, the others the stored one."
  },
  {
   "property": "C197",
   "status": "partial",
   "theorems": [
    "WTM.c197_false",
    "WTM.c197_partial",
    "WTM.c197_stretched",
    "WTM.c197_table",
    "WTM.c197_raise"
   ],
   "note": "Missing: data that end before the last day and share their times with the stored copy; changes of the caller to the table are lost; an exception leaves the object set up for one compound."
  },
  {
   "property": "C198",
   "status": "partial",
   "theorems": [
    "WTM.c198_false",
    "WTM.c198_partial",
    "WTM.c198_thousand",
    "WTM.c198_none",
    "WTM.c198_line",
    "WTM.c198_flat",
    "WTM.c198_rows"
   ],
   "note": "Missing: day 1000 (whole of the data, plain average), 2000 (line through the last samples) and later days (no capacity)."
  },
  {
   "property": "C199",
   "status": "partial",
   "theorems": [
    "WTM.c199_false",
    "WTM.c199_partial",
    "WTM.c199_one",
    "WTM.c199_search"
   ],
   "note": "Missing: the function is one everywhere, so it holds only where q happens to be the value for K = 1."
  },
  {
   "property": "C200",
   "status": "partial",
   "theorems": [
    "WTM.c200_false",
    "WTM.c200_partial",
    "WTM.c200_replaced",
    "WTM.c200_twice"
   ],
   "note": "Missing: under 'force' the column of a compound with a day other than 3000 is replaced, also in the table of the caller."
  },
  {
   "property": "C201",
   "status": "partial",
   "theorems": [
    "WTM.c201_false",
    "WTM.c201_partial",
    "WTM.c201_other",
    "WTM.c201_initial"
   ],
   "note": "Missing: bed volumes, for which the batch models end the program."
  },
  {
   "property": "C202",
   "status": "proved",
   "theorems": [
    "WTM.c202_run",
    "WTM.c202_bed_volumes",
    "WTM.c202_mode",
    "WTM.c202_raise",
    "WTM.c202_only"
   ],
   "note": ""
  },
  {
   "property": "C203",
   "status": "partial",
   "theorems": [
    "WTM.c203_false",
    "WTM.c203_partial",
    "WTM.c203_volume",
    "WTM.c203_needs"
   ],
   "note": "Missing: a sheet that gives the volume is a KeyError."
  },
  {
   "property": "C204",
   "status": "partial",
   "theorems": [
    "WTM.c204_false",
    "WTM.c204_partial",
    "WTM.c204_close",
    "WTM.c204_trace"
   ],
   "note": "Missing: concentrations below 5e-9 are zero in the file."
  },
  {
   "property": "C205",
   "status": "proved",
   "theorems": [
    "WTM.c205_parts",
    "WTM.c205_uniform",
    "WTM.c205_rough",
    "WTM.c205_batch",
    "WTM.c205_column"
   ],
   "note": ""
  },
  {
   "property": "C206",
   "status": "proved",
   "theorems": [
    "WTM.c206_rows",
    "WTM.c206_elements",
    "WTM.c206_single",
    "WTM.c206_array"
   ],
   "note": ""
  },
  {
   "property": "C207",
   "status": "proved",
   "theorems": [
    "WTM.c207_hsdm",
    "WTM.c207_psdm"
   ],
   "note": "The pore model is for beads of one total loading holding some presaturant, ions of valence 1 or 2 and pore diffusion at least as fast as surface diffusion."
  },
  {
   "property": "C208",
   "status": "proved",
   "theorems": [
    "WTM.c208_column"
   ],
   "note": "States hold some presaturant and ions have valence 1 or 2; in the pore model pore diffusion is at least as fast as surface diffusion."
  },
  {
   "property": "C209",
   "status": "proved",
   "theorems": [
    "WTM.c209_unique",
    "WTM.c209_inlet",
    "WTM.c209_exists",
    "WTM.c209_restart",
    "WTM.c209_start",
    "WTM.c209_batch_unique",
    "WTM.c209_batch_exists",
    "WTM.c209_batch_start"
   ],
   "note": "Existence is local in time; it says nothing of how long a solution lasts."
  },
  {
   "property": "C210",
   "status": "proved",
   "theorems": [
    "WTM.c210_column",
    "WTM.c210_start",
    "WTM.c210_batch",
    "WTM.c210_batch_start",
    "WTM.surf_negative"
   ],
   "note": "The point that turns negative is named by the grid alone. How far below zero it goes is not said."
  },
  {
   "property": "C211",
   "status": "proved",
   "theorems": [
    "WTM.c211_unique",
    "WTM.c211_exists",
    "WTM.c211_sampled",
    "WTM.c211_column",
    "WTM.c211_pac_unique",
    "WTM.c211_pac_exists"
   ],
   "note": "Existence is local in time."
  },
  {
   "property": "C212",
   "status": "proved",
   "theorems": [
    "WTM.c212_global",
    "WTM.c212_limit",
    "WTM.c212_final",
    "WTM.c212_start",
    "WTM.c212_rest"
   ],
   "note": "Exact solutions of the rate equations, not of the solver."
  },
  {
   "property": "C213",
   "status": "partial",
   "theorems": [
    "WTM.c213_false",
    "WTM.c213_partial",
    "WTM.c213_point",
    "WTM.c213_regression"
   ],
   "note": "False: the value of the second to last sample is taken as zero. Proved where it is zero; c213_point says what holds in general."
  },
  {
   "property": "C214",
   "status": "proved",
   "theorems": [
    "WTM.c214_pac",
    "WTM.c214_pac_start",
    "WTM.c214_gac",
    "WTM.c214_gac_start"
   ],
   "note": "Holds of the discretised equations, not of the diffusion equation they stand for. The column needs a Freundlich exponent under one."
  },
  {
   "property": "C215",
   "status": "proved",
   "theorems": [
    "WTM.c215_smooth",
    "WTM.c215_tables",
    "WTM.c215_sampled",
    "WTM.c215_column"
   ],
   "note": "One compound with exponent at most one and surface diffusion no faster than pore diffusion. For several compounds C211 gives existence for some time only."
  },
  {
   "property": "C216",
   "status": "proved",
   "theorems": [
    "WTM.c216_gac",
    "WTM.c216_gac_odd",
    "WTM.c216_gac_even",
    "WTM.c216_iex",
    "WTM.c216_iex_odd"
   ],
   "note": "Exact solutions of the discretised equations, one element along the bed (ne = 1). The carbon code replaces negative effluents by zero, the ion exchange code looks only at the last time."
  },
  {
   "property": "C217",
   "status": "partial",
   "theorems": [
    "WTM.c217_totals",
    "WTM.c217_partial",
    "WTM.c217_resin",
    "WTM.c217_negative",
    "WTM.c217_batch_totals",
    "WTM.c217_batch",
    "WTM.c217_false",
    "WTM.c217_threshold"
   ],
   "note": "Holds for columns when the influent total is constant, and for batch runs. While the influent total rises the outlet lags behind and the exact run is reported (c217_false)."
  },
  {
   "property": "C218",
   "status": "proved",
   "theorems": [
    "WTM.c218_rates",
    "WTM.c218_start",
    "WTM.c218_runs",
    "WTM.c218_unique",
    "WTM.c218_contact",
    "WTM.c218_batch_rates",
    "WTM.c218_batch_start",
    "WTM.c218_batch_runs",
    "WTM.c218_batch_ratio"
   ],
   "note": ""
  },
  {
   "property": "C219",
   "status": "proved",
   "theorems": [
    "WTM.c219_groups",
    "WTM.c219_design",
    "WTM.c219_constant",
    "WTM.c219_effluent",
    "WTM.c219_tables",
    "WTM.c219_proportional"
   ],
   "note": "The design is given plain numbers (cm, ml/min, mm); with units there is the factor of C65."
  },
  {
   "property": "C220",
   "status": "proved",
   "theorems": [
    "WTM.c220_equal",
    "WTM.c220_start",
    "WTM.c220_exchange",
    "WTM.c220_binary",
    "WTM.c220_dilute",
    "WTM.c220_single",
    "WTM.c220_hsdm"
   ],
   "note": "Loadings may undershoot (C210); for two ions the interval may reach below zero and above the capacity. Several ions with different selectivities are not treated."
  },
  {
   "property": "C221",
   "status": "proved",
   "theorems": [
    "WTM.c221_iast",
    "WTM.c221_below",
    "WTM.c221_above",
    "WTM.c221_first",
    "WTM.c221_same",
    "WTM.c221_guess",
    "WTM.c221_sooner",
    "WTM.c221_alone",
    "WTM.c221_mirror",
    "WTM.c221_gac",
    "WTM.c221_gac_below",
    "WTM.c221_gac_bed"
   ],
   "note": "Real arithmetic; the solver is a parameter that returns a positive root."
  },
  {
   "property": "C222",
   "status": "proved",
   "theorems": [
    "WTM.c222_exists",
    "WTM.c222_unique",
    "WTM.c222_fronts",
    "WTM.c222_displaced",
    "WTM.c222_effluent",
    "WTM.c222_order"
   ],
   "note": "For different exponents the later zones are not treated; the first zone is (C221)."
  },
  {
   "property": "C223",
   "status": "partial",
   "theorems": [
    "WTM.c223_partial",
    "WTM.c223_after",
    "WTM.c223_raises",
    "WTM.c223_exact",
    "WTM.c223_false"
   ],
   "note": "False of the code: the last whole day and data later than those of the compound listed first are not compared (c223_false, c223_after). Proved for the days before the last time of the compound listed first (c223_partial); the interpolating functions are the caller's."
  },
  {
   "property": "C224",
   "status": "partial",
   "theorems": [
    "WTM.c224_partial",
    "WTM.c224_false"
   ],
   "note": "False of the code: the compound listed first decides which days are compared (c224_false). Proved for compounds whose data end at the same time (c224_partial)."
  },
  {
   "property": "C225",
   "status": "partial",
   "theorems": [
    "WTM.c225_partial",
    "WTM.c225_drift",
    "WTM.c225_false"
   ],
   "note": "False of the code for compounds whose K was supplied: factors pile up in the table (c225_false, c225_drift). Proved for compounds with a capacity function (c225_partial)."
  },
  {
   "property": "C226",
   "status": "proved",
   "theorems": [
    "WTM.c226_search"
   ],
   "note": ""
  },
  {
   "property": "C227",
   "status": "partial",
   "theorems": [
    "WTM.c227_partial",
    "WTM.c227_smart",
    "WTM.c227_false"
   ],
   "note": "False of the code: run_all_smart leaves the flag off and rounds 1/n, and nothing is put back when a run raises (c227_false). Proved for run_all and run_all_MP that return (c227_partial); run_all_smart keeps the multipliers (c227_smart)."
  },
  {
   "property": "C228",
   "status": "proved",
   "theorems": [
    "WTM.c228_groups",
    "WTM.c228_units",
    "WTM.c228_molar",
    "WTM.c228_single",
    "WTM.c228_linear",
    "WTM.c228_effluent"
   ],
   "note": ""
  },
  {
   "property": "C229",
   "status": "proved",
   "theorems": [
    "WTM.c229_groups",
    "WTM.c229_rates",
    "WTM.c229_effluent"
   ],
   "note": ""
  },
  {
   "property": "C230",
   "status": "partial",
   "theorems": [
    "WTM.c230_partial",
    "WTM.c230_false"
   ],
   "note": "False of the code: the factor dgt/(1+dgt) on all transfer rates depends on the list of compounds (c230_false). Proved up to that factor, which is bounded (c230_partial)."
  },
  {
   "property": "C231",
   "status": "partial",
   "theorems": [
    "WTM.c231_pore",
    "WTM.c231_diffusivity",
    "WTM.c231_water_partial",
    "WTM.c231_linear_partial",
    "WTM.c231_false"
   ],
   "note": "False of the code for exponents other than 1 (c231_false, c231_diffusivity). Proved with exponents 1 (c231_linear_partial); for all exponents, pore concentrations (c231_pore) and, up to the kinetic factor, the water (c231_water_partial)."
  },
  {
   "property": "C232",
   "status": "proved",
   "theorems": [
    "WTM.c232_column",
    "WTM.c232_run",
    "WTM.c232_batch",
    "WTM.c232_batch_run"
   ],
   "note": ""
  },
  {
   "property": "C233",
   "status": "partial",
   "theorems": [
    "WTM.c233_partial",
    "WTM.c233_column",
    "WTM.c233_run",
    "WTM.c233_unique",
    "WTM.c233_false"
   ],
   "note": "False of the code: a divalent ion in the list switches to the formula that takes the selectivity of the presaturant to be 1 (c233_false). Missing in c233_partial: lists whose only divalent ions are absent ones, unless the presaturant has selectivity 1 and is still on the resin."
  },
  {
   "property": "C234",
   "status": "partial",
   "theorems": [
    "WTM.c234_partial",
    "WTM.c234_run",
    "WTM.c234_seeded",
    "WTM.c234_presaturant",
    "WTM.c234_undefined",
    "WTM.c234_false"
   ],
   "note": "False of the code for divalent ions, with each of which a thousandth of the capacity is loaded at the start (c234_false, c234_seeded). Proved for the others, over whole runs (c234_partial, c234_run)."
  },
  {
   "property": "C235",
   "status": "partial",
   "theorems": [
    "WTM.c235_partial",
    "WTM.c235_refused",
    "WTM.c235_list",
    "WTM.c235_ignored",
    "WTM.c235_false"
   ],
   "note": "False of the code: a request of time zero only is taken for no request (c235_false, c235_ignored). Proved for every request with a time that is not zero (c235_partial); the others are refused (c235_refused)."
  },
  {
   "property": "C236",
   "status": "proved",
   "theorems": [
    "WTM.c236_rates",
    "WTM.c236_start",
    "WTM.c236_run"
   ],
   "note": ""
  },
  {
   "property": "C237",
   "status": "partial",
   "theorems": [
    "WTM.c237_partial",
    "WTM.c237_rates",
    "WTM.c237_start",
    "WTM.c237_run",
    "WTM.c237_false"
   ],
   "note": "False of the code for divalent ions in several parts, each loaded with a thousandth of the capacity (c237_false, c237_start). Proved for the rates (c237_rates) and, when no divalent ion has more than one part, for whole runs (c237_partial, c237_run)."
  },
  {
   "property": "C238",
   "status": "proved",
   "theorems": [
    "WTM.c238_final",
    "WTM.c238_dose",
    "WTM.c238_capacity",
    "WTM.c238_film",
    "WTM.c238_helfferich"
   ],
   "note": ""
  },
  {
   "property": "C239",
   "status": "proved",
   "theorems": [
    "WTM.c239_update",
    "WTM.c239_rates",
    "WTM.c239_run"
   ],
   "note": ""
  },
  {
   "property": "C240",
   "status": "proved",
   "theorems": [
    "WTM.c240_exchange",
    "WTM.c240_run",
    "WTM.c240_equal"
   ],
   "note": "For two ions with selectivity the runs are assumed to settle, which c220_dilute and c220_single give for dilute water or one bead point."
  },
  {
   "property": "C241",
   "status": "proved",
   "theorems": [
    "WTM.c241_rates",
    "WTM.c241_run",
    "WTM.c241_start"
   ],
   "note": ""
  },
  {
   "property": "C242",
   "status": "proved",
   "theorems": [
    "WTM.c242_two",
    "WTM.c242_equal"
   ],
   "note": "Exact solutions of the rate equations, not of the solver."
  },
  {
   "property": "C243",
   "status": "proved",
   "theorems": [
    "WTM.c243_falls",
    "WTM.c243_time",
    "WTM.c243_study"
   ],
   "note": "Exact solutions of the rate equations, not of the solver."
  },
  {
   "property": "C244",
   "status": "proved",
   "theorems": [
    "WTM.c244_ahead",
    "WTM.c244_time",
    "WTM.c244_dose"
   ],
   "note": "Exact solutions of the rate equations, not of the solver."
  },
  {
   "property": "C245",
   "status": "proved",
   "theorems": [
    "WTM.c245_two",
    "WTM.c245_equal"
   ],
   "note": "Exact solutions of the rate equations, not of the solver."
  },
  {
   "property": "C246",
   "status": "proved",
   "theorems": [
    "WTM.c246_meaning",
    "WTM.c246_pac",
    "WTM.c246_batch"
   ],
   "note": "Exact solutions of the rate equations, not of the solver."
  },
  {
   "property": "C247",
   "status": "proved",
   "theorems": [
    "WTM.c247_two",
    "WTM.c247_equal"
   ],
   "note": "Exact solutions. In the model with pores only where pore diffusion is not faster than surface diffusion or there are no pores: a stronger water also diffuses faster in the pores."
  },
  {
   "property": "C248",
   "status": "proved",
   "theorems": [
    "WTM.c248_share"
   ],
   "note": "Exact solutions of the rate equations, not of the solver."
  },
  {
   "property": "C249",
   "status": "proved",
   "theorems": [
    "WTM.c249_similar",
    "WTM.c249_size"
   ],
   "note": "Exact solutions of the rate equations, not of the solver."
  },
  {
   "property": "C250",
   "status": "partial",
   "theorems": [
    "WTM.c250_partial",
    "WTM.c250_text",
    "WTM.c250_false"
   ],
   "note": "False of the code for the row format (c250_false); proved for all other rows."
  },
  {
   "property": "C251",
   "status": "proved",
   "theorems": [
    "WTM.c251_order",
    "WTM.c251_example"
   ],
   "note": ""
  },
  {
   "property": "C252",
   "status": "partial",
   "theorems": [
    "WTM.c252_partial",
    "WTM.c252_carbon",
    "WTM.c252_false"
   ],
   "note": "False of the code for rows that hold text (c252_false); proved for rows that hold a number."
  },
  {
   "property": "C253",
   "status": "proved",
   "theorems": [
    "WTM.c253_form",
    "WTM.c253_example",
    "WTM.c253_defaults",
    "WTM.c253_time",
    "WTM.c253_known"
   ],
   "note": "Reading and writing of numbers as text is a parameter, assumed to give back the numbers of the form."
  },
  {
   "property": "C254",
   "status": "proved",
   "theorems": [
    "WTM.c254_reads",
    "WTM.c254_example"
   ],
   "note": "Names distinct apart from case."
  },
  {
   "property": "C255",
   "status": "proved",
   "theorems": [
    "WTM.c255_settles",
    "WTM.c255_start"
   ],
   "note": "K = 1, no divalent ions; all axial grids of solve, in both modes."
  },
  {
   "property": "C256",
   "status": "proved",
   "theorems": [
    "WTM.c256_mean"
   ],
   "note": "Columns as in C255 with at least three axial points."
  },
  {
   "property": "C257",
   "status": "proved",
   "theorems": [
    "WTM.c257_forgets",
    "WTM.c257_run"
   ],
   "note": "Columns as in C255."
  },
  {
   "property": "C258",
   "status": "proved",
   "theorems": [
    "WTM.c258_pulse"
   ],
   "note": "Columns as in C255 with at least three axial points."
  },
  {
   "property": "C259",
   "status": "proved",
   "theorems": [
    "WTM.c259_totals",
    "WTM.c259_delay",
    "WTM.c259_tracer",
    "WTM.c259_limit"
   ],
   "note": "Rates C and w exist but are not given in closed form. Single Legendre element or any number of elements of three points, as in solve."
  },
  {
   "property": "C260",
   "status": "proved",
   "theorems": [
    "WTM.c260_near",
    "WTM.c260_either",
    "WTM.c260_run",
    "WTM.c260_area"
   ],
   "note": "The size of the neighbourhood and the rate exist but are not given in closed form. That every run from clean carbon comes near exhaustion is not claimed."
  },
  {
   "property": "C261",
   "status": "proved",
   "theorems": [
    "WTM.spent_exists",
    "WTM.spent_unique",
    "WTM.c261_near",
    "WTM.c261_run",
    "WTM.c261_either",
    "WTM.c261_area"
   ],
   "note": "The size of the neighbourhood and the rate exist but are not given in closed form. That every run from a fresh column comes near exhaustion is proved without selectivity only (C255)."
  },
  {
   "property": "C262",
   "status": "proved",
   "theorems": [
    "WTM.c262_exists",
    "WTM.c262_rest",
    "WTM.c262_near",
    "WTM.c262_run",
    "WTM.c262_either",
    "WTM.c262_area",
    "WTM.c262_equal",
    "WTM.c262_slow",
    "WTM.mixPhysical_setting"
   ],
   "note": "The size of the neighbourhood and the rate exist but are not given in closed form. Surface diffusivities that differ much without pore diffusion are not covered, and whether runs from a fresh column come near exhaustion is not shown."
  },
  {
   "property": "C263",
   "status": "partial",
   "theorems": [
    "WTM.c263_false",
    "WTM.c263_disturbs",
    "WTM.c263_race",
    "WTM.c263_partial",
    "WTM.c263_page",
    "WTM.c263_upload",
    "WTM.c263_newest",
    "WTM.c263_iex",
    "WTM.c263_use",
    "WTM.c263_use_early",
    "WTM.c263_use_own",
    "WTM.c263_closed"
   ],
   "note": "False as stated: c263_false has a witness for each application. It holds if the other windows write no files; an open page is never changed by the others."
  },
  {
   "property": "C264",
   "status": "proved",
   "theorems": [
    "WTM.c264_near",
    "WTM.c264_run",
    "WTM.c264_either",
    "WTM.c264_exists",
    "WTM.c264_area"
   ],
   "note": ""
  },
  {
   "property": "C265",
   "status": "proved",
   "theorems": [
    "WTM.c265_near",
    "WTM.c265_run",
    "WTM.c265_either",
    "WTM.c265_spread",
    "WTM.c265_equal",
    "WTM.c265_two",
    "WTM.c265_trace",
    "WTM.c265_alike"
   ],
   "note": ""
  },
  {
   "property": "C266",
   "status": "partial",
   "theorems": [
    "WTM.c266_partial",
    "WTM.c266_measured",
    "WTM.c266_drawn",
    "WTM.c266_lost",
    "WTM.c266_even",
    "WTM.c266_boxes",
    "WTM.c266_none",
    "WTM.c266_false"
   ],
   "note": "False of the code for computed curves: the tables are split by place and then filtered by name, so that a curve at the wrong place is drawn nowhere (c266_lost), as many inorganic ions as others (c266_even); with PFOA before chloride both graphs are without curves (c266_none). Proved when the four ions come first (c266_partial); for all orders, measured effluents and influents (c266_measured), the curves that are drawn (c266_drawn) and the boxes (c266_boxes)."
  },
  {
   "property": "C267",
   "status": "proved",
   "theorems": [
    "WTM.c267_gain",
    "WTM.c267_settles"
   ],
   "note": "Columns as in C255."
  },
  {
   "property": "C268",
   "status": "proved",
   "theorems": [
    "WTM.c268_area",
    "WTM.c268_train",
    "WTM.c268_exists"
   ],
   "note": "Columns as in C255 with at least three axial points; the runs of a series share one clock, the time scale handed to them."
  },
  {
   "property": "C269",
   "status": "proved",
   "theorems": [
    "WTM.c269_ramp",
    "WTM.c269_effluent"
   ],
   "note": "Columns as in C255 with at least three axial points."
  },
  {
   "property": "C270",
   "status": "proved",
   "theorems": [
    "WTM.c270_cycle",
    "WTM.c270_step",
    "WTM.c270_mean"
   ],
   "note": "Columns as in C255, for the balance over a period with at least three axial points."
  },
  {
   "property": "C271",
   "status": "partial",
   "theorems": [
    "WTM.c271_false",
    "WTM.c271_partial",
    "WTM.c271_nearest",
    "WTM.c271_exact",
    "WTM.c271_again",
    "WTM.c271_zero",
    "WTM.c271_digits",
    "WTM.c271_run",
    "WTM.c271_still",
    "WTM.c271_saved",
    "WTM.c271_flow"
   ],
   "note": "False as stated: the fields keep two to five decimals (c271_false has a witness for each application), and a column given by a flow rate never comes back exactly (c271_flow). It holds for numbers with no more decimals than the field; the error is bounded (c271_run, c271_saved). Rests on the documented rounding of the autoNumeric library, an assumption."
  },
  {
   "property": "C272",
   "status": "proved",
   "theorems": [
    "WTM.c272_gain",
    "WTM.c272_tends",
    "WTM.c272_either",
    "WTM.c272_run"
   ],
   "note": "Generalises c260_near and c260_either to influents that vary; for exact solutions of the differential equations of the code, with the influent as a function of time (not its table by the minute)."
  },
  {
   "property": "C273",
   "status": "proved",
   "theorems": [
    "WTM.c273_gain",
    "WTM.c273_tends",
    "WTM.c273_either",
    "WTM.c273_run"
   ],
   "note": "Generalises c262 to influents that vary; for exact solutions of the differential equations of the code, with the influent as a function of time (not its table by the minute)."
  },
  {
   "property": "C274",
   "status": "proved",
   "theorems": [
    "WTM.c274_gain",
    "WTM.c274_tends",
    "WTM.c274_either",
    "WTM.c274_run"
   ],
   "note": "Generalises c265 to influents that vary; for exact solutions of the differential equations of the code, with the influent as a function of time of constant total."
  },
  {
   "property": "C275",
   "status": "proved",
   "theorems": [
    "WTM.c275_forget",
    "WTM.c275_cycle"
   ],
   "note": "For exact solutions of the differential equations of the code, with the influent as a function of time; near exhaustion only (for linear columns see C270)."
  },
  {
   "property": "C276",
   "status": "proved",
   "theorems": [
    "WTM.c276_forget",
    "WTM.c276_cycle"
   ],
   "note": "For exact solutions of the differential equations of the code, with the influent as a function of time of constant total; near exhaustion only (for columns without selectivity see C270)."
  },
  {
   "property": "C277",
   "status": "proved",
   "theorems": [
    "WTM.c277_ion",
    "WTM.c277_ion_cycle",
    "WTM.c277_ion_mean",
    "WTM.c277_ion_near",
    "WTM.c277_gac",
    "WTM.c277_gac_cycle",
    "WTM.c277_gac_mean",
    "WTM.c277_gac_near"
   ],
   "note": "For exact solutions of the differential equations of the code; times in the units of the models."
  },
  {
   "property": "C278",
   "status": "proved",
   "theorems": [
    "WTM.c278_gac",
    "WTM.c278_effluent"
   ],
   "note": "For exact solutions of the differential equations of the code, with the influent as a function of time; near exhaustion only (for linear columns see C269)."
  },
  {
   "property": "C279",
   "status": "proved",
   "theorems": [
    "WTM.c279_ion",
    "WTM.c279_effluent"
   ],
   "note": "For exact solutions of the differential equations of the code, with the influent as a function of time of constant total; near exhaustion only (for columns without selectivity see C269)."
  },
  {
   "property": "C280",
   "status": "proved",
   "theorems": [
    "WTM.c280_square",
    "WTM.c280_around"
   ],
   "note": "For exact solutions of the differential equations of the code, with the one-element axial grid (OCFE off, the default); not stated for element mode. The first ion is the one that makes up the total."
  },
  {
   "property": "C281",
   "status": "proved",
   "theorems": [
    "WTM.c281_contracts",
    "WTM.c281_passes",
    "WTM.c281_steady",
    "WTM.c281_limit"
   ],
   "note": "For exact solutions of the differential equations of the code, with the one-element axial grid and the effluent handed on as a function of time; run_LL_ix hands on samples every quarter of a day, between which load_Cin interpolates (for the bookkeeping of the samples see C103)."
  },
  {
   "property": "C282",
   "status": "proved",
   "theorems": [
    "WTM.c282_sampled",
    "WTM.c282_fine"
   ],
   "note": "For exact solutions of the differential equations of the code, with the one-element axial grid. run_LL_ix has four samples a day whatever the column; that this is N0 or more is not shown. After the swap the vessels here have the raw water at once, in run_LL_ix on a straight line within a quarter of a day."
  },
  {
   "property": "C283",
   "status": "proved",
   "theorems": [
    "WTM.c283_square",
    "WTM.c283_forgets",
    "WTM.c283_contracts",
    "WTM.c283_passes",
    "WTM.c283_settles",
    "WTM.c283_relay"
   ],
   "note": "For exact solutions of the differential equations of the code, with the one-element axial grid. That no bead is loaded below zero is a condition on the runs: the rates count such a bead as empty, and there the column is not linear. Beds that were loaded before can meet it throughout (c283_relay); of clean beds with three or more radial points inner beads go below zero at once (C214, shown there for 1/n below one), so for these it is not a statement about run_LL_gac. Feeds and effluents are in one unit of concentration; run_LL_gac has every pass in units of its own mean influent, and hands on samples with straight lines between them."
  },
  {
   "property": "C284",
   "status": "proved",
   "theorems": [
    "WTM.c284_column",
    "WTM.c284_nopores",
    "WTM.c284_monovalent",
    "WTM.c284_runs",
    "WTM.c284_batch",
    "WTM.c284_batch_monovalent",
    "WTM.c284_web"
   ],
   "note": "Over the reals. Floating point does the divisions by the solid fraction in another order. The batch pore model divides by zero at some states where the homogeneous one, which evaluates the equilibrium at the surface only, does not; there nothing is said unless all ions are monovalent."
  },
  {
   "property": "C285",
   "status": "partial",
   "theorems": [
    "WTM.c285_partial",
    "WTM.c285_correlated",
    "WTM.c285_coefficient",
    "WTM.c285_removable",
    "WTM.c285_false"
   ],
   "note": "False of the code: with the same diffusivity in pores and on surfaces, as entered or by correlation when psdfr times the pore capacity is the surface capacity, facA divides by zero and every bead rate of the compound is nan (counterexample proved). Exactly these columns are excluded (c285_partial). The quotient is removable: the product with bedp, in which alone facA is used, tends to a number (c285_removable)."
  },
  {
   "property": "C286",
   "status": "partial",
   "theorems": [
    "WTM.c286_partial",
    "WTM.c286_below",
    "WTM.c286_divalent",
    "WTM.c286_batch",
    "WTM.c286_web",
    "WTM.c286_negative",
    "WTM.c286_vessel",
    "WTM.c286_false"
   ],
   "note": "False of the code: for a presaturant loading below zero the formula takes the other root of the quadratic, so the limit from below has a negative concentration for every other monovalent ion on the resin and the equilibrium jumps (c286_below, counterexample in c286_false). The limit from above is the neutral water without presaturant (c286_partial), and both sides agree when the resin holds no other monovalent ion (c286_divalent). The batch formula agrees on both sides (c286_batch), and the web application jumps alike (c286_web). At every loading below zero these equilibrium concentrations are negative (c286_negative), and a vessel then takes the ion even out of water that has none (c286_vessel)."
  },
  {
   "property": "C287",
   "status": "proved",
   "theorems": [
    "WTM.c287_linear",
    "WTM.c287_runs",
    "WTM.c287_effective",
    "WTM.c287_curved",
    "WTM.c287_fouled",
    "WTM.c287_fouling_tells"
   ],
   "note": "Exact real arithmetic. Sufficiency for any number of compounds (c287_linear, as runs c287_runs), necessity per compound (c287_effective), on fouled carbon the effective diffusivity of the present fouling decides (c287_fouled) and two foulings tell the pair apart (c287_fouling_tells), both diffusivities determined for one compound with another exponent (c287_curved; needs a bead point below the surface with a non-zero collocation weight). Surface diffusivities at the lower limit of 1e-130 and pairs of equal diffusivities (C285) are excluded."
  }
 ]
}