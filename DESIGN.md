# Formal model of USEPA/Water_Treatment_Models

Source read: `/repo` (Python; ion exchange `IonExchangeModel/ixpy`, granular carbon `PSDM/psdm`,
powdered carbon `Shiny-PAC/PAC.py`). Nothing was run; every definition in `lean/Verif` cites the
file and lines it models.

## Layout

* `lean/Verif/Model/*.lean`  – definitions that mirror the Python code, function by function.
* `lean/Verif/Spec/*.lean`   – small specifications written without reference to the model.
* `lean/Verif/Lemmas/*.lean` – helper lemmas.
* `lean/Verif/Props/*.lean`  – one or more theorems per property (`c01_…`), with non-vacuity examples.
* `MANIFEST.json` – property → theorem names.  `seeded/LOG.jsonl` – wrong-program experiments.

## Trusted base

* Lean 4.33.0 kernel, Mathlib; axioms `propext`, `Classical.choice`, `Quot.sound` only.
* The reading of the Python source. The code is not executed.
  `Props/Reference.lean` checks part of that reading: the model has the values that the repository's own
  assertions expect (`test_colloc.py`, the first rows of `test_alkalinity.py`, the two published columns of
  `PSDM_extra.py:304-356`), for whatever nodes satisfy the specification of the root finders.
* Floating point is idealised as ℝ. Rounding, overflow, NaN/inf are **not** modelled; a division by
  zero that the code can reach is an explicit error/guard in the statement, not Lean's `x/0 = 0`.
* numpy arrays are functions of indices (`Fin n → ℝ`, lists where length matters); broadcasting is
  written out pointwise. pandas frames are association lists / functions on names.
* Exceptions are values (`Except`/`Option`); interactive `input()` is a list of answers.
* External numerics are parameters: `scipy.special.roots_*` (nodes: only distinctness, or being zeros
  of the orthogonal polynomial, is assumed and always an explicit hypothesis), `solve_ivp` (statements
  are about the right-hand side, exact trajectories, and arbitrary one-step/multistep updates that are
  affine combinations of states and rates), `interp1d`/`np.interp` (modelled, piecewise linear),
  `quad`, `brentq`, `minimize` (parameters), Excel/pandas IO, plotting, multiprocessing: not modelled.

## Plan per property

| id | modelled as | proof |
|----|-------------|-------|
| C01–C03 | `conv_units` on a table `List (String × ℝ)` with first-match lookup and interactive correction; six tables | field algebra for any table with nonzero/positive coefficients, instantiated on the six tables |
| C04 | compound converters with `split('/')`, `gpm`, IndexError, and answers stream | case analysis over all strings |
| C05 | same tables | coefficient equality ⇒ interchangeable for every partner |
| C06 | same tables | true for m, cm, mm; **false** for ft, in: counterexample + `_partial` |
| C07 | `conv_params`, `conv_params_data` on a sheet | each row's value·factor depends only on physical quantity |
| C08, C09 | `Q_calc`, `load_data` 134-136, `conv_fr_to_vel`, velocity selection | algebra |
| C10, C11 | `conv_database`, `conv_conc`, alkalinity block | algebra; alpha in (0,1) |
| C12 | `load_data` valences captured before the alkalinity rename | partial (no alkalinity, or alkalinity last & valence 1…) + counterexample |
| C13 | raw copy of kL/Ds/Dp | partial (cm/s) + counterexample |
| C14, C15 | `recur`, `calc_px_column`, `recur_colloc` | fold computes P',P'',P''' of the nodal polynomial; matrix entries are derivatives of Lagrange basis; Lagrange interpolation |
| C16 | `recur_colloc_symm` | chain rule on f(x)=g(x²) |
| C17 | weights of `recur_colloc_symm` | positivity/sum by algebra; exactness from orthogonality of the nodal polynomial |
| C18 | `build_colloc` (Vandermonde) | uniqueness of interpolation |
| C19, C20 | `advect_operator`, OCFE sizes | induction-free block argument on index arithmetic |
| C21 | piecewise-linear interpolation | induction on table |
| C22–C27 | `calc_Ceq_mv`, `calc_Ceq_dv` (column and batch) | quadratic algebra; C27 false for valence 3, counterexample |
| C28–C34, C82 | `diffun` of HSDMIX, PSDMIX, batch variants; `approx_Jac_struc` | linear algebra on finite sums; trajectories via derivative zero ⇒ constant; steps by induction |
| C35–C37 | `save_results`, `conv_iex_u` | algebra; C37 false for valence ≠ 1 and meq (counterexample) |
| C38 | fold of elementwise max/min | induction over the list of runs |
| C39, C40 | object state as a record, deepcopy as value copy | state reasoning; false parts with witnesses |
| C41–C45 | `foul_params` table, `fouling_k`, `__fouled_k_new`, `tortuosity` | whole-table check lifted; monotonicity of exp/affine |
| C46–C48 | `recalc_k`, molar K, IAST expression | real powers |
| C49, C50 | `run_psdm.diffun`, `spar_Jac` | finite sums; dependency case analysis |
| C51–C53 | column object as record with backups; `run_psdm_kfit`, `model_uncertainty`, `run_all` | refinement; C53 false for run_all (witness) |
| C54 | `run_all_smart` search loop with abstract error surface | fuel-free termination by loop counter; invariant by induction |
| C55–C57 | derived quantities, clamp, mass-transfer override | algebra |
| C58–C63 | `predict_full_scale` weights and search, `calculate_replacement_interval`, `specific_throughput` | arithmetic, first-exceedance search by induction; false parts with witnesses |
| C64–C67 | `calc_RSSCT_specs`, `build_large_scale_column`, mesh table | algebra, whole-table check |
| C68, C69 | `_fcn2`, `run_ecm` recurrence | real powers; induction on components |
| C70–C73 | `lead_lag_class` dispatch, flow sharing, horizon, selectivity | case analysis |
| C74–C81 | `PAC.py` | finite sums, ODE verification, monotone inverse interpolation, IVT |
| C83 | `ssq` statistic | sums of squares |
| C84 | six unit tables | physical value of each entry |
| C85 | uncertainty run on tables in hours or days | witness (days) and partial |
| C86, C120–C122 | water properties, film and diffusivity correlations | derivatives, monotonicity on each range |
| C87, C88, C92, C93 | `run_psdm`: competitive equilibrium, bead, physical variables, influent table | real powers; change of variables; exact factor where it fails |
| C89–C91 | ion-exchange loading and bead equations | algebra; exact excess where the split fails |
| C94–C96 | `specific_throughput`, units in `PSDM_extra` | algebra, case analysis |
| C97–C101 | `ecm.py` | sorting of fronts; flux condition; trials as a list |
| C102–C106 | lead-lag: shared flow, chain of vessels, ion tables | fold over vessels |
| C107–C116 | `PAC.py`: construction, unit tables, studies, bead and film equations, analytical solutions | case analysis; finite sums; ODE verification |
| C117–C119 | `process_input_file` | table lookup; interpolation between samples |
| C123–C128 | `__calculate_capacity` | exact integrals of piecewise linear functions; first crossing; logistic inverse |
| C129–C131 | `run_psdm_dsfit`, `predict_full_scale_ds` | induction over trials and compounds |
| C132 | `find_minimum_df` | invariant of the masked table, counting below a percentile |
| C133–C135 | `isotherm_fit` | least squares as assumption; algebra of bands |
| C136 | `solve` with `u_init` | chain rule, rescaling of time; list induction for the influent sheet |
| C137, C138 | R application: `HSDMIX_solve`, `PSDMIX_solve` | R recycling and shape rules; comparison with the Python model; linear invariant |
| C139–C143 | unit tables of the R applications, `column_data`, plot axes | size of each unit by definition; exact factor where it fails |
| C144, C145, C148 | `cin_correct`, name check, c/c0, plots of the R ion-exchange application | induction over the ion list; permutation of names |
| C146, C147 | calculators of the R ion-exchange application | algebra; real powers |
| C149–C151, C153 | GAC_Shiny_helper.py | grids of `arange`; segments of interpolation; induction over sheet rows |
| C152 | units and `mass_transfer` of `PSDM.__init__` | cases; induction over the entries |
| C154 | `rad_colloc`, `ax_colloc` of the R application | invariant of the vectors used again; C14, C16, C17 |
| C155, C156 | balance of a whole column | Gauss quadrature on Legendre zeros, telescoping over elements, fundamental theorem of calculus |
| C157 | tracer | exactness of the operator on polynomials |
| C158, C159 | film diffusion series of the powdered carbon model | monotonicity of tan on each branch, orthogonality of modes, Bessel inequality |
| C160-C167 | web application of the powdered carbon model: output, form, calculators, upload and save | position in the long table, composition with C79, C109 and the constructor, induction over uploads |
| C168-C175 | web application of the carbon column: measured points, save and upload, check, run, fit, session | position in the long table, spreading of a long table, induction over the actions of a session |
| C176-C182 | server of the ion exchange web application: run, measured points, saved results, parameters, session, uploads | conversion column by column, membership in the long table, induction over the actions of a session |
| C183-C185 | grid search of `run_all`: errors, copy in the web application, staged refinement | relation of the object between trials, induction over trials, loops and compounds, bounds of evenly spaced grids |
| C186-C190 | making a lead-lag object, resin inputs, compounds of mixed systems | cases of the error flag, lookup after an update of rows, membership |
| C191-C195 | differences, fits of all compounds, older readers | induction on lists of calls and factors, mean value theorem, cases of the limit |
| C196-C200 | full-scale prediction, forced capacity, tables given | induction on the compounds with the state left by each run, integrals, induction on the table |
| C201-C204 | files of the batch models, command line | closed form of the conversion by induction on ions, rounding |
| C205-C208 | energy of the bead, states that stand still | interpolation polynomials, exact quadrature, root counting, monotone equilibrium |
| C209 | existence and uniqueness of ion exchange runs | Picard-Lindelof, smoothness of the rates |
| C210 | undershoot inside the bead after a clean start | differential equation of the Jacobi polynomial, signs in the Laplacian, short-time expansion |
| C211 | existence and uniqueness of carbon runs | Picard-Lindelof, a Lipschitz bound for shares times powers |
| C212 | PAC contactor: global runs and convergence to equilibrium | a convex potential that falls along runs, LaSalle |
| C213 | line through the last two effluent samples | unfolding; counterexample with three samples |
| C214 | negative loadings right after the start, carbon | second derivative at time zero; sign of the surface column of the bead matrix |
| C215 | runs of single compound columns over their whole time | potential of the beads plus content; growth at most exponential; gluing of minutes |
| C216 | sign of the concentrations along the bed and of the effluent right after the start | sign of products of node differences; rate at time zero |
| C217 | warnings after an ion exchange run | totals satisfy a linear equation; uniqueness; an explicit run with rising influent |
| C218 | units of the ion exchange models | homogeneity of the equilibrium formulas and of every rate; uniqueness |
| C219 | rapid small-scale columns | the dimensionless groups of both columns are equal; uniqueness of runs |
| C220 | batch ion exchange equilibrium | each ion is a closed tank with a rising isotherm (Lemmas/Tank); energy and LaSalle |
| C221, C222 | equilibrium of mixtures; zones of `run_ecm` | inverse of the theory by the spreading pressure (Lemmas/Iast); fronts by monotonicity in the total loading |
| C223, C224 | `fit_ecm2` | sums over lists; iff by nonnegativity of squares |
| C225, C226, C227 | points, result and settings of the smart search | invariant of the cache; induction over passes |
| C228, C229, C230, C231 | what a carbon run depends on: concentration scale, order of compounds, absent compounds, first sample | invariance of the arrays and of `diffun`; uniqueness of exact runs (C211) |
| C232, C233, C234 | what an ion exchange run depends on: order of the ions, ions that are not there | injections of the shorter list into the longer one; sums over the ions; uniqueness of exact runs (C209) |
| C235, C236, C237, C238, C239 | requested times; ions entered in parts; dose of powdered carbon; compounds on powdered carbon | case analysis of the request; sums over the parts and uniqueness (C209); monotone mass balance at the limit (C212); uniqueness (C211) |
| C240 | dose of resin in a batch | mass balance with the loading eliminated, monotone in resin, capacity and selectivity; limits from C220 |
| C241 | blends of influents in a column | linearity of the equilibrium at a fixed total; totals of two runs by uniqueness of a linear equation; uniqueness (C209) |
| C242 | falling concentrations in a batch | the bead operator is symmetric in the quadrature product, so the response of the surface to mass put on it is positive and falls; first moment of equilibrium |
| C243 | falling effluent of powdered carbon | as C242; limit (C212) and intermediate values; segments of the interpolation (C79) |
| C244 | order of two contactors | first moment at which a share of the lead is lost: the surface of the one ahead is then loaded less; derivative of a product with the response run backwards |
| C245 | order of two batches | as C244 |
| C246 | slowing approach | the tank is symmetric in a product, so the excess at s + t is the product of the states at s and t; Cauchy-Schwarz gives a convex logarithm |
| C247 | stronger water | change of units (C218) makes it less capacity; C245 |
| C248 | one curve for all ions | the tank of an ion is linear; uniqueness |
| C249 | similar contactors | rates times theta; uniqueness |
| C250 | case and notation | relation between tables kept by each step of reading |
| C251 | order of rows | mapM over permutations, lookup in tables with distinct names |
| C252 | other rows | lookup skips them |
| C253 | form and defaults | unfolding |
| C254 | entries of the tables | lookup by name, case ignored |
| C255 | exhaustion | energy of the collocation operator (Legendre nodes), dissipation in beads and film, compactness |
| C256 | mean breakthrough time | balance of C155 and the limit of C255 |
| C257 | forgetting the start | difference of two runs is the linear column; variation of constants for existence |
| C258 | pulses | balance of C155 and C257 after the pulse |
| C259 | water only flows | energy of the collocation operator; what loses nothing at the outlet is nothing (invariance argument), compactness |
| C260 | exhaustion attracts | linearisation at rest settles by the energy of C255; the supremum of the weighted linear flow is a Lyapunov function for the whole system |
| C261 | exhaustion attracts, two ions | the second ion follows a scalar isotherm, increasing at exhaustion; then as C260 |
| C262 | exhaustion attracts, any compounds in competition | the slope of the isotherm is symmetric and positive after weighting by loading over concentration; energy weighted with it falls |
| C263 | windows of a web application | one directory of files and a session per window; the files and the session of a window agree with those of its own events alone, by induction on the events |
| C264 | IEX, exhaustion with many ions | the slope of the equilibrium at exhaustion is symmetric and positive in the weights 1/(valence * loading); the energy of C262 decays in all coordinates, and totals that are zero stay zero |
| C265 | IEX, exhaustion with ions of different mobilities | the excess of the presaturant is eliminated; the energy is the form of weights 1/(valence * concentration) over all ions, in which the slope at exhaustion is symmetric and, under the condition on the mobilities, films and diffusion take energy away; areas by c264_area |
| C266 | graphs of the R ion-exchange application | filters commute with stacking; the split at n curves of nt points each is take and drop of curves |
| C267 | answer to the influent | the excess of one run over the other obeys the linear column with a push proportional to the difference of the influents; variation of constants |
| C268 | columns in series | balance of C155, limits of C267, induction on the number of columns |
| C269 | steadily changing influents | the linear column can be solved for the lag as it settles; the lag at the outlet from the balance of C155 |
| C270 | recurring influents | states one period apart form a geometric series by C257; its limit starts the periodic run |
| C271 | fields of the forms | rounding to a fixed number of decimals; π is irrational |
| C272 | almost exhausted carbon column, influent varying | variation of constants with a Lyapunov norm; a small remainder absorbed |
| C273 | almost exhausted carbon column with competing compounds, influent varying | C272's argument on the bed of many compounds; a cut-off right-hand side for existence |
| C274 | almost exhausted ion exchange column, influent varying | C273's argument on the bed of the ions but the presaturant; totals persist |
| C275 | almost exhausted carbon columns, pairs of runs and recurring influents | strict differentiability and a Lyapunov norm for pairs; the states after whole periods converge |
| C276 | almost exhausted ion exchange columns, pairs of runs and recurring influents | C275's argument on the bed of the ions but the presaturant |
| C277 | long-run balance of influent and effluent | C155 and C156 with weights that are not negative and sum to one |
| C278 | almost exhausted carbon columns, slow influents | states of rest as recurring runs under constant pushes; iterate the contraction of C275 over a fixed time |
| C279 | almost exhausted ion exchange columns, slow influents | C278's argument on the bed of the ions but the presaturant |
| C280 | no amplification in the mean square | a form on the axial points for which one pass of water gives off at most what it takes up, from exactness of the quadrature; energy balance in integrated form |
| C281 | passes of like vessels that change places | C280's balance before the swap, and that a fed column keeps part of its energy after it, give a contraction; sums of geometric series |
| C282 | passes with samples | C281's contraction has room for errors that are small against the energy of the difference; the error of straight lines is bounded by the rate of change, that by the energy |
| C283 | carbon passes | with 1/n = 1 and no bead below zero the difference of two runs solves C280's linear column; its energy bounds the passes; near exhaustion C272 keeps the beads above zero |
| C284 | porous and homogeneous beads | the equilibrium at loadings over the solid fraction is the equilibrium with scaled selectivities; the pore term of the flux vanishes |
| C285 | diffusivities of a carbon column | the factor has a value iff the ratio of diffusivities is not 1; the ratio in closed form; continuity of the product |
| C286 | resin that loses its presaturant | the ratio of concentration and loading in closed form with the sign of the loading; continuity on each side; signs of the roots |
| C287 | pore and surface diffusion told apart | the pore concentration of a linear isotherm in closed form; the sum of the bead coefficients; states with a single loaded point |

## What is modelled, file by file

Taken from the header of each model module; the definitions cite lines.

| module | what it models and what it leaves out |
|---|---|
| `Analyze` | Functions over all compounds of a column and older readers, without plots and files: `analyze_all` and `analyze_all_ds`, PSDM_tools.py:649-758, `calc_Jac`, PSDM_functions.py:813-833, `process_raw_data` and `process_raw_data_new`, PSDM_functions.py:318-453. A pool of processes gives every process lists of compounds to run one after the other on a copy of the object (`multiprocessing.Pool.starmap_async`): the parameter `chunks`. If several raise, the first one in order is taken. Whether chained assignments reach the table depends on the pandas version: `thru`. |
| `Colloc` | Model of `IonExchangeModel/ixpy/colloc.py` and of the collocation part of `PSDM/psdm/PSDM_functions.py` (`calc_solver_matrix`, 516-668). `Shiny-PAC/PAC.py` carries copies of the same functions: `recur`, `calc_px_column`, `recur_colloc` and `recur_colloc_symm` (175-313) are those of colloc.py, `build_colloc` (142-172) is that of PSDM_functions.py, and `Qinv_weights_symm` (105-139) is `sW` below at the square roots of the nodes of `radialNodes`. Node positions come from `scipy.special` root finders; they are parameters here. Arrays are functions on `Fin n`. |
| `Corr` | Model of the correlations: water properties, film transfer and diffusivity, in PSDM/psdm/PSDM_functions.py and IonExchangeModel/ixpy/KL_guess.py. `x**y` is the real power. |
| `DsFit` | The fit of the surface diffusion coefficient, `run_psdm_dsfit`, PSDM.py:1764-1824, and `predict_full_scale_ds`, PSDM_tools.py:511-643, without plots and files. The simulation is the parameter `Sim` of Model/GacState.lean. The change of the last time of the data in place (PSDM_tools.py:544-547) is left out: the fit reads the stored data. |
| `Ecm` | ecm.py: the equilibrium column model. `root` is a parameter; its `success` flag is not looked at by the code. Printing and `dg` (85) are left out. `minimize` is a list of trials. |
| `EcmFit` | `fit_ecm2` of ecm.py. The interpolating functions it is given are the caller's: a last time and a call that may raise (`interp1d` without extrapolation does outside of its table). `minimize` sees the objective only. |
| `Equil` | Local equilibrium of the ion-exchange models: `calc_Ceq_dv`, `calc_Ceq_mv` of hsdmix.py:425-458 (identical in psdmix.py:222-256) and of the batch models hsdmixbatch.py:211-239 (identical in psdmixbatch.py:211-239). Ions are indexed by `Fin (p+1)`, `0` being the presaturant (reference). One axial point at a time (the numpy code is vectorised over axial points). Valences are natural numbers. |
| `Extra` | PSDM_extra.py: mesh sizes, unit conversion, large column, rapid small-scale column. A NaN is `none`. The one place where numpy makes a number out of NaN (`nan ** 0`, a particle diameter that was not given and `power_x = 2`) is `none` here. Lists of other lengths than two are not modelled. |
| `FindMin` | `find_minimum_df`, PSDM_functions.py:909-997: the choice of the best cell of a table of errors. A table of `nx` rows and `ny` columns is a function of the positions; labels are positions. Entries are numbers (no NaN). Division of a positive number by zero, which gives infinity in the code, is not modelled; of zero by zero is. |
| `Fouling` | Fouling of carbon capacity and tortuosity: PSDM_functions.py:463-509, 688-727 and `__get_fouling_params`, `__fouled_k_new` in PSDM.py:357-406 (the Shiny-GAC copies are identical). |
| `FullScale` | `predict_full_scale` on a column object, PSDM_tools.py:205-252 and 310-318, without plots and files; the rotation (258-308) is `predictFullScale` of Model/Tools.lean. The last time of the data is changed in place (216-219): `shared` says whether the stored copy of the data (PSDM.py:733) has the same index array, which depends on the version of pandas. `xdata` is not part of the object: the runs of one compound do not read it. |
| `GacCapacity` | Model of `PSDM.__calculate_capacity`, PSDM/psdm/PSDM.py:408-728, with `break_type='calc'` (the default): the estimate of `K` from measured influent and effluent. `curve_fit` and `linregress` are parameters: the values they return, or `none` if they raise; fits with a slope of zero, which give an infinite time, are not modelled. `quad` is the integral. `interp1d` sorts its points. The `'force'` branch (653-719) is Model/GacForce.lean. |
| `GacColumn` | Granular activated carbon column: `PSDM.run_psdm`, PSDM.py:1320-1655, and the film and isotherm helpers in PSDM_functions.py. Floating point is replaced by `ℝ`; a division by zero is `0` here, so theorems that need a nonzero divisor say so. Compounds `Fin n`, bead points `Fin (r+1)` (last = surface; `nc = r + 1`), axial points `Fin (z+1)` (0 = inlet; `mc = z + 1`). A state is `y : Fin n → Fin (r+2) → Fin (z+1) → ℝ`; the last row is the liquid. |
| `GacFactor` | The divisions of `run_psdm` that have no result: the tortuosity factor at equal diffusivities (PSDM.py:1517) and what becomes of the rates. |
| `GacForce` | The estimate of `K` with `break_type='force'`, PSDM/psdm/PSDM.py:653-719, where the day of breakthrough is read from a table, and the isotherm table `__init__` makes (282-318). `np.linalg.lstsq` is a parameter, `quad` the integral, `interp1d` sorts its points. A day of zero, which divides by zero, is not modelled. |
| `GacInput` | Model of `process_input_file`, PSDM/psdm/PSDM_functions.py:48-266: the column sheet and the data sheet. Reading the workbook is not modelled; all rows of the column sheet are there (a missing one raises `KeyError`), except `time`. The pivoted data sheet has a column for every compound in both streams; repeated measurements, which `pivot_table` averages, are given as one. |
| `GacRunAll` | `run_all`, PSDM.py:796-1013, and `run_all_MP`, 2026-2153: fitting by grids, brute or staged. Plots and files are left out. `find_minimum_df` is the parameter `findMin`: given the rows `(K multiplier, 1/n, error)` it names a pair or raises. The writes `self.k_data.loc['K'][compound] = …` and `self.k_data[compound]['K'] = …` are taken to reach the table. |
| `GacSetup` | What `run_psdm` reads of the column object (PSDM.py:1332-1347, 1379-1383): geometry, carbon and water. The object's values are those computed at construction, PSDM.py:192-219. |
| `GacState` | The carbon column object: its geometry, backups, single-compound runs, the two fitting loops and the uncertainty analysis (PSDM.py:192-352, 730-1310, 1659-1762, 1828-2011). The simulation `run_psdm` itself is the parameter `Sim`: a function of everything it reads from the object (its equations are Model/GacColumn.lean). Tables are functions of the compound name; a compound missing from a table is not modelled except in the data. A run that raises leaves the object as it is at that moment. |
| `GacUncert` | `model_uncertainty` of the carbon column, PSDM.py:1828-2011. Results are kept as functions of time instead of at the 2000 points of `self.results.index`. Restricting `k_data` to one column (1856, 1975) is not shown: the other columns are not read by a run of that compound alone. Whether the chained assignments `self.uncertainty_results['lower'][comp] = …` of the competitive branch (2002-2003) reach the table or a copy of it depends on the pandas version: the parameter `thru`. |
| `IexBatch` | Batch ion-exchange models: `solve` and `diffun` of hsdmixbatch.py:113-318 and psdmixbatch.py:112-318. States are `u : Fin (r+2) → Fin (p+1) → ℝ` (liquid, bead points, last = surface). Every ion has the same `kL`, `Ds`, `Dp` here and there is no implicit reference ion. |
| `IexChecks` | The checks on a finished run, hsdmix.py:560-571, psdmix.py:376-387, hsdmixbatch.py:315-316 and psdmixbatch.py:329-330, on the list of stored times and states. `np.allclose` is its documented formula. Each prints one line of warning. |
| `IexColumn` | Column ion-exchange models: `solve` and its `diffun` in hsdmix.py:280-573 and psdmix.py:66-389. Ions `Fin (p+1)` (0 = presaturant), axial points `Fin (z+1)` (0 = inlet), bead points `Fin (r+1)` (last = surface). A state is `u : Fin (r+2) → Fin (p+1) → Fin (z+1) → ℝ`: index 0 is the liquid (`LIQUID`), index `k.succ` is bead point `k` (`RESIN:`), the last one the bead surface (`SURF = -1`). In the code `nr = r + 1`, `NION = p + 1`, `nz = z + 1`. Floating point is replaced by `ℝ`; the value of a division by zero is `0` here, so theorems that need a nonzero divisor say so. |
| `IexFiles` | Reading and saving of the batch models, hsdmixbatch.py:25-110 and psdmixbatch.py:25-109 (the same text), the labels of saved columns, hsdmix.py:260-277, and the command line, runner.py:15-50 with `__main__.py`. Writing the workbook is not modelled: `fileOf` is what is read back. The columns of a result are those of the ions. Of `%.8f` the rule for values half way between two decimals is not modelled. |
| `IexLoad` | Model of the parameter sheet and ion table handling: `IonExchangeModel/ixpy/paramsheets.py` 311-497, `hsdmix.py` 94-277 (the same code is inherited by `psdmix.py` and the batch classes), `converter.py`. |
| `IexTimes` | Times at which the ion exchange models report: the argument `t_eval` of `solve`, hsdmix.py:397, 537-551, psdmix.py:194, 353-367, hsdmixbatch.py:295-305, psdmixbatch.py:309-319. The integration is not modelled: `solver` are the times the integrator chooses when it is not given any. Success of the integration is assumed. |
| `Interp` | Piecewise-linear interpolation as done by `scipy.interpolate.interp1d(kind='linear')` with its default `bounds_error` and the influent time series built from it. |
| `IsoFit` | `isotherm_fit`, PSDM_tools.py:321-501, without drawing. Missing cells are `none`. `curve_fit` is a parameter. A zero mass (an infinite loading) and negative concentrations are not modelled. |
| `LeadLag` | lead_lag_class.py: lead-lag systems of carbon and resin vessels. A vessel is a parameter `F`: the map from its influent on the quarter-day grid to its effluent there. Reading spreadsheets and printing are left out; `conv_iex_u` is in `IexLoad`. |
| `LeadLagInit` | `LLobj.__init__`, `io_data`, `_check_both` and the choice of compounds of the mixed runners, PSDM/psdm/lead_lag_class.py:56-83, 135-339, 636-692, 776-890, 903-911. Reading a file is the parameter that says whether it succeeds. Left out: title, job name, collocation points of the carbon vessels, water and chemical type, printing. |
| `Pac` | Model of `Shiny-PAC/PAC.py`: unit tables, construction, derived rows, the rate equations, the analytical solutions, and the dose and contact time studies. NaN is `none`. The collocation matrices come from the file's copy of `recur_colloc_symm` (PAC.py:254-313, line for line the function of colloc.py modelled in `Colloc.lean`) and are parameters here. `viscosity` and `density` of water are not modelled: `dw` is a parameter. `solve_ivp` is a parameter. Printing is not modelled. The tables are read in `PacRead.lean`. |
| `PacHsdm` | Model of the third analytical solution of `get_analytical_sol2` in `Shiny-PAC/PAC.py`: diffusion in the particle together with the film, in a bath of finite size. The root finder `brentq` is a parameter that may raise (`none`: the ends of its bracket have the same sign). |
| `PacRead` | Model of how `PAC_CFPSDM.__init__` of `Shiny-PAC/PAC.py` reads its three tables (385-437, 558, 574-575) before the part modelled as `pacBuild` in `Pac.lean`, and of `R_run_PAC` as far as the tables go (1128-1146). A cell is a text or a number, NaN being a number without value. How pandas reads a text as a number and how Python writes a number are parameters. Row names of one table are distinct even when their case is ignored. `self.TIS` (568-571), `self.t_mult` (437) and `self.time_incr` (559) are stored and never read; of these only the failure of 437 is modelled, and the factor. When several things are wrong the exception is the first of: a value that is no number, the time unit, units that are no text, and then those of `pacBuild`; in the source units that are no text are met row by row. |
| `Py` | Values standing for the Python exceptions that the modelled code can raise. |
| `RColloc` | Model of `rad_colloc` and `ax_colloc` of the ion-exchange web application (Shiny-IEX/Ion_Exchange_Model.R:114-296). The zeros come from the package orthopolynom; they are a parameter here, with the 0 and 1 the code puts around them. `NA` is `none`. R numbers vectors from one. |
| `RField` | Model of the numeric fields of the three web applications: `shinyWidgets::autonumericInput` with `decimalPlaces` (`Shiny-IEX/Ion_Exchange_Model.R`, `Shiny-GAC/GACapp.R`, `Shiny-PAC/PACapp.R`). The field is drawn by the library autoNumeric in the browser. It is assumed to do what its documentation says: a number that is typed, or sent by `updateNumericInput`, is rounded to `decimalPlaces` decimals, halves away from zero, and `input$…` is the rounded number. The limits of the library (up to 10¹³) are not considered. |
| `RGac` | Model of the server of the carbon column web application, `Shiny-GAC/GACapp.R`: measured points on the plot, the sheet of measurements and the sheet of the column in a saved workbook and after its upload, the check before a run, the run, the fit and the button "Use", and what is on the screen afterwards. The units of the form are modelled in RWeb.lean. Cells of tables are numbers or NA (`none`). Numbers keep their value on the way through a workbook or a csv file. A table editor shows the file it was given when the session was opened and returns what the user made of it. |
| `RGraph` | What the two graphs of the ion exchange web application are drawn from, `Shiny-IEX/Ion_Exchange_Model.R`: the tables of the computed curves (`rCounterRows`, `rOtherRows` of `Model/RWeb`), of the effluent and of the influent go through the three boxes the user ticks and through filters by name. A row is a name with its data; a row of `NA` is `none`. Colours and layout are not modelled. |
| `RIex` | The ion-exchange models of the web application, written in R: `HSDMIX_solve` and `PSDMIX_solve` of Shiny-IEX/Ion_Exchange_Model.R:299-485, 491-699. `NR = r + 1`, `NION = p + 1`, `NZ = z + 1`; the parameters are those of `ColParams`, already in the units used by the solver (Model/RWeb.lean). In R the liquid is the last index of the first dimension (`LIQUID <- NR + 1`), so an array `x` has beads at `k.castSucc` and the liquid at `Fin.last`. Three R rules matter here: * arithmetic between a vector and an array runs over the array in column-major order and starts the vector again when it is used up (`recyc`), without a message when the lengths divide; * `m[1, ]` or `m[rows, ]` with one row selected is a vector, and `colSums` of a vector is an error; * a matrix assigned to fewer cells than it has is an error. An error is `none`. The sliders give `NR, NZ ≥ 3` (Ion_Exchange_Model.R:1367-1368), so no other dimension collapses. |
| `RIexApp` | Model of the server of the ion-exchange web application, `Shiny-IEX/Ion_Exchange_Model.R`: the arguments of a run, measured points on the plots, saved results, the sheet of parameters in a saved workbook and after its upload, the upload of workbooks, and what is on the screen after a sequence of actions. Units, influent and the split of the plots are modelled in RWeb.lean, the solvers in RIex.lean. Tables have the column `time` first and are given by their times and their other columns; there are no empty cells, except that a session knows whether there are. Names of columns that R would change (`make.names`) are not considered. Observers of a session have come to rest before the next action. |
| `RPac` | Model of the server of the powdered carbon web application, `Shiny-PAC/PACapp.R`: the form, the call of PAC.py, the output in the chosen units, C/C0, the dose and contact time calculators, upload and save. Compounds are numbered: column names of an R data frame are distinct. Widgets are modelled by their values (the rounding that `autonumericInput` and `sliderInput` do in the browser is not). reticulate passes numbers and strings unchanged and a vector of length one as a number. Plots and notifications are not modelled. |
| `RServer` | Model of the three web applications with several windows open at once: one process and one directory `temp_file` (`Shiny-IEX/Ion_Exchange_Model.R`, `Shiny-GAC/GACapp.R`, `Shiny-PAC/PACapp.R`). Reading of workbooks and actions within a session are those of RIexApp.lean, RGac.lean and RPac.lean. `session$reload()` asks the browser to load the page again; the new session begins when the browser does, and other windows may act before. R runs one observer at a time. Uploads are possible whether or not a window is open; this gives more runs than there are. |
| `RUnits` | Unit tables of the three web applications, written in R. An R named vector is an association list: `x["u"]` is the first entry with that name, and `NA` (here `none`) when there is none. The constants are those of Shiny-IEX/Ion_Exchange_Model.R:36-65, Shiny-GAC/GACapp.R:23-57 and Shiny-PAC/PACapp.R:22-60. |
| `RWeb` | What the web applications do between the form and the model, and between the model and the plots. `none` is `NA`. Tables come with their time column first, as the applications write them; `cols` are the other columns in order. The number of rows does not matter and a column is a list of numbers. |
| `ShinyFit` | `run_all` in the copy of the carbon column that comes with the web application, Shiny-GAC/psdm/PSDM.py:796-1010: as in GacRunAll.lean, except for the trial, which does not put `K` and `1/n` into the table (889-892; the lines 891-892 of PSDM/psdm/PSDM.py are not there). `run_psdm_kfit` is the same in both. |
| `ShinyGac` | Model of Shiny-GAC/GAC_Shiny_helper.py, the functions the carbon web application calls, with `python = False`, and of the units and transfer coefficients `PSDM.__init__` takes (PSDM/psdm/PSDM.py:147-189, 329-350; the copy in Shiny-GAC/psdm has the same lines). Tables from R are rows of a time and a value. Concentrations are not divided by the reference concentration here, which is a common factor. Reading of numbers from text (`np.float64`) is not modelled. |
| `Tools` | PSDM_tools.py: `specific_throughput`, the bed rotation of `predict_full_scale`, `calculate_replacement_interval`. Plots, prints and files are left out. The writes `replacement_interval.loc[comp]['note'] = …` are taken to reach the table. |
| `Uncertainty` | Uncertainty analysis of the ion-exchange columns: `HSDMIX.model_uncertainty` (hsdmix.py:575-659) and `PSDMIX.model_uncertainty_PSDM` (psdmix.py:391-479). |
| `Units` | Model of `IonExchangeModel/ixpy/paramsheets.py` lines 50-306 (unit conversion). |

### Assumptions about external code

* `solve_ivp`: theorems about trajectories take an exact solution of the modelled right-hand side as hypothesis, or hold
  for every list of steps that are affine combinations of states and rates. No claim is made about step size, tolerance
  or failure of the integrator, except that a failure is an exception where the code looks at it.
* `Sim` (Model/GacState, GacUncert, GacRunAll, DsFit): one simulation is a function of what `run_psdm` reads from the
  object. `Spec.Local` (a run of one compound does not read the rows of others) is a hypothesis of the theorems that
  need it.
* `scipy.optimize.root` (ecm): `RootOk`, the values returned solve the equations; the `success` flag is not looked at by
  the code, so this is not guaranteed. `minimize` is a list of trials. `curve_fit`: arbitrary (capacity) or minimizing
  (`Spec.LeastSq`, isotherm fit). `linregress`, `quad` (exact integral), `brentq` (not modelled).
* `interp1d` sorts its nodes; where this matters (`ecm`) there is a hypothesis that fronts are apart, and `c97_sorted`.
* pandas: writes by chained indexing (`table.loc[row][col] = …`) reach the table or a copy depending on the version. They
  are taken to reach the table in `run_all` and `calculate_replacement_interval`, and are the parameter `thru` in the
  uncertainty analysis and in the lead-lag flow.
* `str.lower` is `lowerStr`: ASCII letters.
* NaN is `none` in Extra, Pac, IsoFit, GacState; elsewhere entries are numbers. `nan ** 0 = 1` is not modelled.

### Not modelled

Excel and CSV reading and writing, plots, printing, multiprocessing (only its result: `run_all_MP` is the loop over
compounds), the R code of the three Shiny applications except the parts cited in `Model/R*.lean`, conversion of text to numbers, running time, floating point
rounding, overflow and infinities, warnings;
the daily resampling in `predict_full_scale_ds` (parameter `daily`) and its change of the last time of the data; in
`process_input_file` missing rows of the column sheet and repeated measurements; in `find_minimum_df` infinite errors;
lead-lag vessels (a parameter `F`, whose results reach the last time of the grid); the method chosen by `solver='BDF'` in
PAC.py (not a keyword of `solve_ivp`, so it has no effect). `Shiny-GAC/psdm` is not modelled apart from `PSDM/psdm`, except the
trials of its `run_all` (Model/ShinyFit). It differs in imports, `float()` casts and `ptp`; in fouled waters it divides the surface
diffusion coefficient by 1e15 instead of 1e10 (PSDM.py:1431, Shiny-GAC/psdm/PSDM.py:1429); it has no lead-lag class.

## Findings: properties false of the code

Each is stated in full in Lean as `def CNN : Prop` (or in the text of the theorem), refuted by a theorem with a
witness (`…_false` or a named counterexample), and kept with what does hold (`…_partial`).

| id | property | what the code does | theorems |
|---|---|---|---|
| C06 | Length, area and volume tables agree with each other | False of the code for ft and in (counterexample proved); exact for metric units, within 2e-4 for all. | `c06_false`, `c06_metric_partial`, `c06_approx_partial` |
| C100 | A zero fit error means a fit | False of the code: the two errors are multiplied, so agreement of either the days or the peaks scores zero (proved exactly). | `c100_partial`, `c100_false` |
| C101 | After a fit the equilibrium column holds the best parameters | False of the code: the object keeps the last trial (proved). | `c101_partial`, `c101_false` |
| C102 | Lead and lag vessels of a mixed system share one flow | False of the code: other accepted units raise KeyError; exact for the six listed. 'use gac' depends on chained assignment reaching the table. | `c102_partial`, `c102_short`, `c102_false`, `c102_gac` |
| C104 | The lag vessel of a mixed system is fed with the lead vessel's effluent | False of the code for shared compounds that were not asked for; proved for the others. | `c104_partial`, `c104_false` |
| C105 | A resin-resin run leaves the influent data as they were | False of the code: the influent table of the last pass is left in the object. | `c105_partial`, `c105_mean`, `c105_false` |
| C107 | The PAC contactor counts the inputs it is missing | False of the code: a missing length or flow raises AttributeError, and a length that is not a number hides another missing input. | `c107_partial`, `c107_no_flow`, `c107_no_length`, `c107_hidden`, `c107_false` |
| C110 | The carbon in the modelled contactor is the stated dose | False of the code: epsilon uses the density of water, so the carbon modelled is the dose times carbon density over water density. | `c110_partial`, `c110_false` |
| C111 | A concentration unit accepted for the compounds is accepted for the target | False of the code: the unit is lowered before the lookup, so 'ug/L' raises KeyError and leaves the duration changed. | `c111_partial`, `c111_false` |
| C117 | The column sheet of a PSDM workbook means what it says | False of the code: a quantity in an unknown unit is loaded as zero without an error, and pounds per cubic foot are off by 2e-7. Exact for all other units of the tables. | `c117_partial`, `c117_unknown`, `c117_false` |
| C118 | Concentration and time units of a PSDM workbook have their size | False of the code: milligrams are read as nanograms, and 'hours' as minutes labelled days. | `c118_partial`, `c118_wrong`, `c118_false` |
| C119 | The measurement table keeps what was measured and has no gaps | False of the code: samples at a time where another compound is missing are overwritten by interpolation, a stream not sampled at zero has no value there, a sheet without time zero starts at zero, and a missing last sample is extrapolated, below zero if the curve falls. Proved when each time is complete or empty and zero is complete, apart from the sign. | `c119_partial`, `c119_index`, `c119_zero`, `c119_tidy`, `c119_negative`, `c119_false` |
| C12 | Each ion is simulated with its own valence | False of the code when alkalinity is substituted by bicarbonate and is not the last, valence 1 ion (counterexample proved). | `c12_false`, `c12_partial`, `c12_alkalinity_last_partial` |
| C124 | The breakthrough time is the day the effluent reaches the influent | False of the code: a crossing on day zero gives minus one, which is then replaced by the end of the data; one after day 2001 gives the last sample before day 2000. Proved for days 1 to 2001. | `c124_partial`, `c124_zero`, `c124_late`, `c124_false` |
| C125 | The breakthrough time is positive and at most 2000 days | False of the code: data over 2000 days with a crossing on day zero give the end of the data. Proved for data under 2000 days; positive for all data with a sample between 0 and 2000. | `c125_partial`, `c125_positive`, `c125_false` |
| C127 | Estimating the capacity leaves the measured data as they were | False of the code: with artificial_point the estimate appends a row to the caller's table, whatever its time. Proved without it, with several compounds, or with a crossing in the data. | `c127_partial`, `c127_row`, `c127_false` |
| C129 | Fitting the surface diffusion coefficient returns the best of thirty and restores the column | False of the code: the k_data table that the class builds has no rows MolarVol and MW, so the fit ends in KeyError with the column restricted to one compound. Proved for tables with these rows. | `c129_partial`, `c129_returns`, `c129_factors`, `c129_fresh`, `c129_false` |
| C13 | Film coefficient and diffusivities given in the parameter sheet are converted like other parameters | False of the code when the sheet's kL is not in cm/s (counterexample proved). | `c13_false`, `c13_partial` |
| C130 | The surface diffusion fit starts from the correlation the simulation uses | False of the code: ds_base is the correlation times tortuosity times the molar K; in fouled water a trial value is divided by 1e10 before use. | `c130_partial`, `c130_base`, `c130_fouled`, `c130_false` |
| C131 | predict_full_scale_ds predicts with the stored coefficients | False of the code: the fit ignores the range it is given, so the stored coefficients do not matter; proved that the rotation is that of the refitted curves and the column is restored when it returns. | `c131_partial`, `c131_ignored`, `c131_missing`, `c131_false` |
| C132 | find_minimum_df finds the smallest entry | False of the code: two equal smallest entries raise TypeError. Proved for up to 40 cells with one smallest entry; for larger tables that the answer is the smallest entry or one at the bottom of a block that lies below the tenth percentile. | `c132_partial`, `c132_small`, `c132_ties`, `c132_false` |
| C133 | isotherm_fit fits the loadings of the bottles | False of the code: the first call adds a column q to the caller's table and later calls use it whatever C0 and mass are. Proved for tables without that column; curve_fit is assumed to minimize. | `c133_partial`, `c133_stale`, `c133_unknown`, `c133_false` |
| C137 | The web application computes the same ion-exchange rates as the Python package | False of the code. The coefficients Ds and Dp are recycled along the bead points instead of the ions, so bead point k of counter-ion i is computed with the coefficient of counter-ion (k + nr*i) mod p (c137_mixed); with two ions, with one monovalent counter-ion beside a divalent one, or with two divalent ions the function stops (c137_stops). Proved equal for two or more counter-ions with common coefficients (c137_partial). | `c137_partial`, `c137_mixed`, `c137_stops`, `c137_false` |
| C140 | The carbon web application passes the column of the form to the model | False of the code for flows in mgd: the factor lacks the minutes of a day, so the model runs with 1440 times the flow (c140_mgd). Proved for all other units (c140_partial). The pound is off by 1e-6. | `c140_partial`, `c140_mgd`, `c140_false` |
| C141 | The time axis of the carbon web application is right | False of the code: tables in hours are plotted as if in days (c141_hours), a year has 360 days (c141_years), and bed volumes from a linear velocity are 60 times too small (c141_linear). Proved for tables in days plotted in days, hours, months, or in bed volumes from a flow not in mgd (c141_partial). | `c141_partial`, `c141_hours`, `c141_years`, `c141_linear`, `c141_false` |
| C143 | c/c0 of the carbon web application divides by the influent of the same compound | False of the code: columns are matched by position. Proved when both tables have the same order (c143_partial). | `c143_partial`, `c143_false` |
| C144 | Every ion of the web application is fed with its own influent | False of the code: names are compared but columns are taken by position, so ion number k gets column number k, converted for the ion that column is named after (c144_position). Proved when the order is the same (c144_partial); mismatching names stop the run (c144_mismatch). | `c144_position`, `c144_partial`, `c144_mismatch`, `c144_false` |
| C147 | The film coefficient estimate is the correlation for the bed of the form | False of the code: units are ignored, and so is a flow entered in place of the velocity (c147_units). Proved for cm and cm/s (c147_partial). Density and viscosity are those of the code. | `c147_partial`, `c147_units`, `c147_false`, `c147_python`, `c147_water` |
| C148 | Counter-ions and other ions are plotted apart | False of the code: the first n curves are taken as counter-ions, n being how many of the four are present. Proved when they come first and are not alone (c148_partial). In any order every curve is in the table of one plot, once and whole (c148_once), but C266 shows that the plots then leave out the misplaced ones; with counter-ions only, the table of the other plot has an empty row and one point of the last curve (c148_all). | `c148_partial`, `c148_once`, `c148_all`, `c148_false` |
| C149 | The carbon web application feeds the influent of the table | False of the code: the table is resampled at whole times first, so samples between them are lost; a peak at noon of a day vanishes (c149_false). Proved for tables with whole times (c149_partial). For all tables: exact at whole times, straight between them (c149_daily, c149_whole). | `c149_daily`, `c149_whole`, `c149_partial`, `c149_false` |
| C151 | Transfer coefficients of the properties sheet are used | False of the code: a text in the row hides all numbers after it (c151_text). Proved for rows of numbers (c151_partial). | `c151_partial`, `c151_text`, `c151_false` |
| C152 | Units and transfer coefficients given to the column object are those used | False of the code in the last part on units: a unit not known is taken as minutes, litres or micrograms without notice (c152_unchecked). The rest is proved; a table that names a unit must have the factor too (c152_table). | `c152_keywords`, `c152_table`, `c152_unchecked`, `c152_masstransfer`, `c152_false` |
| C153 | What the fit of the web application shows as fitted was fitted | False of the code: after an exception the result holds an isotherm of ones or twos for a compound called 0 (c153_failed). Proved when nothing fails (c153_partial). | `c153_partial`, `c153_failed`, `c153_false` |
| C158 | The root search of the film diffusion series finds the modes | Missing: Biot numbers up to 1 (and those above by less than 4(n+1)/500000), where the slowest mode can be below the first bracket; more than 901 roots; a mode exactly at the point where the first bracket is split. brentq is a parameter: it returns a zero in the bracket when the ends differ in sign, an error otherwise. | `c158_false`, `c158_partial` |
| C160 | C/C0 of the powdered carbon application refers to the own influent | Missing: any number of compounds other than two; with one every second value is NA, with more the wrong influent is used. | `c160_false`, `c160_partial`, `c160_position` |
| C162 | The form of the powdered carbon application is the model that runs | Missing: the volume from the dimensions; the format offered is not the one PAC.py knows, so the stated volume is used whatever is selected. | `c162_false`, `c162_partial`, `c162_run`, `c162_geometry`, `c162_menus` |
| C163 | Dose calculator of the powdered carbon application | Missing: equal ends of the slider, an exception. | `c163_false`, `c163_partial`, `c163_doses` |
| C164 | Contact times for a target are those of the water in the table | Missing: compounds in other units than those selected; their influent is read in the selected unit. | `c164_false`, `c164_partial`, `c164_cells` |
| C165 | An upload replaces the earlier inputs | Missing: sheets that an earlier upload had; they stay in use although default values are announced. | `c165_false`, `c165_partial`, `c165_latest` |
| C166 | The form shows what was uploaded | Missing: length, height, volume and format are not loaded; flow and radius are rounded to four digits when no value of their table is a word. | `c166_false`, `c166_partial`, `c166_rounded` |
| C167 | A saved workbook brings back the form | Missing: values typed into the form, which are not saved. | `c167_false`, `c167_partial` |
| C168 | Measured points of the carbon application over the influent | Missing: two compounds or more, whose values go to points of other compounds and times; computed curves and points in units of concentration are right (c168_curves, c168_conc). | `c168_false`, `c168_partial`, `c168_rows`, `c168_wrong`, `c168_influent`, `c168_curves`, `c168_conc`, `c168_single` |
| C170 | The column survives saving and uploading | Missing: columns given by their velocity, which is not saved. | `c170_false`, `c170_partial`, `c170_velocity`, `c170_sheet`, `c170_missing` |
| C171 | The check before a run keeps out beds without voids | Missing: an apparent density above the particle density; the check uses the one, the model the other. | `c171_false`, `c171_partial`, `c171_rejects` |
| C172 | The button Use | Missing: changes since the upload are lost; before a fit the file of isotherms is overwritten by zeros. | `c172_false`, `c172_partial`, `c172_zeros`, `c172_edits` |
| C173 | Results on the screen belong to their run | Missing: changes of flow, column or units after the run, which rescale the results on the screen. | `c173_false`, `c173_partial`, `c173_results`, `c173_drawn` |
| C174 | The carbon application runs what is on the screen | Missing: the numbers of collocation points, always 7 and 12. | `c174_false`, `c174_partial`, `c174_edit`, `c174_run`, `c174_fit` |
| C175 | An upload to the carbon application replaces the earlier inputs | Missing: sheets that an earlier upload had; they stay in use. | `c175_false`, `c175_partial`, `c175_latest`, `c175_screen` |
| C176 | Saved results of the ion exchange application | Missing: ion sheets that are not PFOA in ng and all other ions in meq; without PFOA nothing can be saved; the choice of output units always gives mg/L. | `c176_false`, `c176_partial`, `c176_nothing`, `c176_output`, `c176_wrong` |
| C178 | Results of the ion exchange application belong to their run | Missing: a run that is refused or fails after a change of the ion sheet puts the new names over the old curves. | `c178_false`, `c178_partial`, `c178_results`, `c178_drawn`, `c178_relabel`, `c178_checks`, `c178_failed` |
| C179 | Measured effluent in the ion exchange application | Missing: tables without one of the ions, which empty the plot; for relative concentrations another order of columns; a single row. | `c179_false`, `c179_partial`, `c179_missing`, `c179_blank`, `c179_shown`, `c179_single`, `c179_order` |
| C182 | An upload to the ion exchange application replaces the earlier inputs | Missing: sheets that an earlier upload had; they stay in use. | `c182_false`, `c182_partial`, `c182_latest`, `c182_screen` |
| C183 | Errors of the grid search belong to their constants | Missing: isotherms from a list, where each row says 1/n = 1. | `c183_false`, `c183_partial`, `c183_chosen` |
| C184 | Grid search in the copy of the carbon column of the web application | Missing: the claim itself; instead all rows have the error and 1/n of the table of isotherms, and a loop fails unless that 1/n is in the grid. | `c184_false`, `c184_partial`, `c184_grid` |
| C185 | Staged refinement keeps the best point | Missing: 1/n in the last loop when the rounded upper bound exceeds the end of the original range. | `c185_false`, `c185_partial` |
| C186 | A lead-lag object without error got its inputs | Missing: with a workbook, reading its influent sheet resets the flag; properties given as a text. | `c186_false`, `c186_partial`, `c186_reset`, `c186_ions`, `c186_text` |
| C187 | Missing lead-lag inputs are reported by the flag | Missing: without a workbook an exception is raised instead; a workbook without ions; a good workbook. | `c187_false`, `c187_partial`, `c187_raises` |
| C188 | A lead-lag object without error can be run | Missing: without a workbook the resin sheets can never be written; a column given as a table, as by default, is never taken. | `c188_false`, `c188_partial`, `c188_never`, `c188_column` |
| C189 | Compounds of a mixed lead-lag system | Missing: other compounds in common or asked for; the union is taken. | `c189_false`, `c189_partial`, `c189_simulated`, `c189_missing` |
| C190 | Parameters and times of the resin workbook of a lead-lag system | Missing: units of time other than hr and days. | `c190_false`, `c190_partial`, `c190_rows` |
| C192 | Fits of all compounds at once | Missing: with ranges to search it never returns and stores K = 1; constants given through the ranges are replaced by 1. | `c192_false`, `c192_partial`, `c192_chunks`, `c192_optimising`, `c192_returns`, `c192_raise`, `c192_undone` |
| C193 | Diffusion fits of all compounds at once | Missing: without optimize_flag it raises at the first compound; when chained assignments do not reach the table the rows stay K. | `c193_false`, `c193_partial`, `c193_chunks`, `c193_title`, `c193_flag`, `c193_raise` |
| C194 | Zeros in the table of process_raw_data | Missing: cells without a measurement are shown as zero. | `c194_false`, `c194_partial`, `c194_missing` |
| C195 | Older readers agree with process_input_file | Missing: measurements equal to a limit other than zero; when chained assignments do not reach the table gaps stay. | `c195_false`, `c195_partial`, `c195_shiny`, `c195_unfilled`, `c195_limit` |
| C196 | Full-scale prediction of several compounds | Missing: a table changed by the caller; only the first compound sees it, the others the stored one. | `c196_false`, `c196_partial`, `c196_any`, `c196_general` |
| C197 | A prediction leaves the object as it was | Missing: data that end before the last day and share their times with the stored copy; changes of the caller to the table are lost; an exception leaves the object set up for one compound. | `c197_false`, `c197_partial`, `c197_stretched`, `c197_table`, `c197_raise` |
| C198 | Capacity from a day given by the user | Missing: day 1000 (whole of the data, plain average), 2000 (line through the last samples) and later days (no capacity). | `c198_false`, `c198_partial`, `c198_thousand`, `c198_none`, `c198_line`, `c198_flat`, `c198_rows` |
| C199 | K by 1/n of a forced estimate | Missing: the function is one everywhere, so it holds only where q happens to be the value for K = 1. | `c199_false`, `c199_partial`, `c199_one`, `c199_search` |
| C200 | Isotherms given by the caller | Missing: under 'force' the column of a compound with a day other than 3000 is replaced, also in the table of the caller. | `c200_false`, `c200_partial`, `c200_replaced`, `c200_twice` |
| C201 | Saved results of the batch models | Missing: bed volumes, for which the batch models end the program. | `c201_false`, `c201_partial`, `c201_other`, `c201_initial` |
| C203 | Resin volume of a batch sheet | Missing: a sheet that gives the volume is a KeyError. | `c203_false`, `c203_partial`, `c203_volume`, `c203_needs` |
| C204 | Numbers in saved files | Missing: concentrations below 5e-9 are zero in the file. | `c204_false`, `c204_partial`, `c204_close`, `c204_trace` |
| C213 | The line estimated from the last two effluent samples | False: the value of the second to last sample is taken as zero. Proved where it is zero; c213_point says what holds in general. | `c213_false`, `c213_partial`, `c213_point`, `c213_regression` |
| C217 | The checks after an ion exchange run warn about wrong runs only | Holds for columns when the influent total is constant, and for batch runs. While the influent total rises the outlet lags behind and the exact run is reported (c217_false). | `c217_totals`, `c217_partial`, `c217_resin`, `c217_negative`, `c217_batch_totals`, `c217_batch`, `c217_false`, `c217_threshold` |
| C223 | What fit_ecm2 compares | False of the code: the last whole day and data later than those of the compound listed first are not compared (c223_false, c223_after). Proved for the days before the last time of the compound listed first (c223_partial); the interpolating functions are the caller's. | `c223_partial`, `c223_after`, `c223_raises`, `c223_exact`, `c223_false` |
| C224 | fit_ecm2 and the order of the compounds | False of the code: the compound listed first decides which days are compared (c224_false). Proved for compounds whose data end at the same time (c224_partial). | `c224_partial`, `c224_false` |
| C225 | The points run_all_smart tries | False of the code for compounds whose K was supplied: factors pile up in the table (c225_false, c225_drift). Proved for compounds with a capacity function (c225_partial). | `c225_partial`, `c225_drift`, `c225_false` |
| C227 | Settings after a fit | False of the code: run_all_smart leaves the flag off and rounds 1/n, and nothing is put back when a run raises (c227_false). Proved for run_all and run_all_MP that return (c227_partial); run_all_smart keeps the multipliers (c227_smart). | `c227_partial`, `c227_smart`, `c227_false` |
| C230 | Compounds that are not in the water | False of the code: the factor dgt/(1+dgt) on all transfer rates depends on the list of compounds (c230_false). Proved up to that factor, which is bounded (c230_partial). | `c230_partial`, `c230_false` |
| C231 | The first influent sample is only a reference | False of the code for exponents other than 1 (c231_false, c231_diffusivity). Proved with exponents 1 (c231_linear_partial); for all exponents, pore concentrations (c231_pore) and, up to the kinetic factor, the water (c231_water_partial). | `c231_pore`, `c231_diffusivity`, `c231_water_partial`, `c231_linear_partial`, `c231_false` |
| C233 | Ions that are not there, in a column | False of the code: a divalent ion in the list switches to the formula that takes the selectivity of the presaturant to be 1 (c233_false). Missing in c233_partial: lists whose only divalent ions are absent ones, unless the presaturant has selectivity 1 and is still on the resin. | `c233_partial`, `c233_column`, `c233_run`, `c233_unique`, `c233_false` |
| C234 | Ions that are not there, in a batch | False of the code for divalent ions, with each of which a thousandth of the capacity is loaded at the start (c234_false, c234_seeded). Proved for the others, over whole runs (c234_partial, c234_run). | `c234_partial`, `c234_run`, `c234_seeded`, `c234_presaturant`, `c234_undefined`, `c234_false` |
| C235 | Requested times of an ion exchange run | False of the code: a request of time zero only is taken for no request (c235_false, c235_ignored). Proved for every request with a time that is not zero (c235_partial); the others are refused (c235_refused). | `c235_partial`, `c235_refused`, `c235_list`, `c235_ignored`, `c235_false` |
| C237 | An ion entered in parts, in a batch | False of the code for divalent ions in several parts, each loaded with a thousandth of the capacity (c237_false, c237_start). Proved for the rates (c237_rates) and, when no divalent ion has more than one part, for whole runs (c237_partial, c237_run). | `c237_partial`, `c237_rates`, `c237_start`, `c237_run`, `c237_false` |
| C250 | Case and notation in the tables of a powdered carbon model do not matter | False of the code for the row format (c250_false); proved for all other rows. | `c250_partial`, `c250_text`, `c250_false` |
| C252 | Rows with other names have no influence on a powdered carbon model | False of the code for rows that hold text (c252_false); proved for rows that hold a number. | `c252_partial`, `c252_carbon`, `c252_false` |
| C263 | People who use a web application at the same time do not disturb one another | False as stated: c263_false has a witness for each application. It holds if the other windows write no files; an open page is never changed by the others. | `c263_false`, `c263_disturbs`, `c263_race`, `c263_partial`, `c263_page`, `c263_upload`, `c263_newest`, `c263_iex`, `c263_use`, `c263_use_early`, `c263_use_own`, `c263_closed` |
| C266 | The two graphs of the ion exchange application draw every computed, measured and influent point of their ions | False of the code for computed curves: the tables are split by place and then filtered by name, so that a curve at the wrong place is drawn nowhere (c266_lost), as many inorganic ions as others (c266_even); with PFOA before chloride both graphs are without curves (c266_none). Proved when the four ions come first (c266_partial); for all orders, measured effluents and influents (c266_measured), the curves that are drawn (c266_drawn) and the boxes (c266_boxes). | `c266_partial`, `c266_measured`, `c266_drawn`, `c266_lost`, `c266_even`, `c266_boxes`, `c266_none`, `c266_false` |
| C27 | Electroneutrality holds for every valence table the user may enter | False of the code: ions of valence 3 or more are left out of the quadratic. c27_false refutes it, c27_partial gives the exact excess and the case where it holds. | `c27_false`, `c27_partial` |
| C271 | The numbers entered in the fields of the web applications are the numbers of the run | False as stated: the fields keep two to five decimals (c271_false has a witness for each application), and a column given by a flow rate never comes back exactly (c271_flow). It holds for numbers with no more decimals than the field; the error is bounded (c271_run, c271_saved). Rests on the documented rounding of the autoNumeric library, an assumption. | `c271_false`, `c271_partial`, `c271_nearest`, `c271_exact`, `c271_again`, `c271_zero`, `c271_digits`, `c271_run`, `c271_still`, `c271_saved`, `c271_flow` |
| C285 | A carbon column has rates for any diffusivities | False of the code: with the same diffusivity in pores and on surfaces, as entered or by correlation when psdfr times the pore capacity is the surface capacity, facA divides by zero and every bead rate of the compound is nan (counterexample proved). Exactly these columns are excluded (c285_partial). The quotient is removable: the product with bedp, in which alone facA is used, tends to a number (c285_removable). | `c285_partial`, `c285_correlated`, `c285_coefficient`, `c285_removable`, `c285_false` |
| C286 | The equilibrium passes through a resin without presaturant | False of the code: for a presaturant loading below zero the formula takes the other root of the quadratic, so the limit from below has a negative concentration for every other monovalent ion on the resin and the equilibrium jumps (c286_below, counterexample in c286_false). The limit from above is the neutral water without presaturant (c286_partial), and both sides agree when the resin holds no other monovalent ion (c286_divalent). The batch formula agrees on both sides (c286_batch), and the web application jumps alike (c286_web). At every loading below zero these equilibrium concentrations are negative (c286_negative), and a vessel then takes the ion even out of water that has none (c286_vessel). | `c286_partial`, `c286_below`, `c286_divalent`, `c286_batch`, `c286_web`, `c286_negative`, `c286_vessel`, `c286_false` |
| C37 | conv_iex_u reports effluent in the units of the influent | False of the code for valence other than 1 and for meq (counterexamples proved). | `c37_false`, `c37_partial`, `c37_table` |
| C38 | Uncertainty band contains the base case and every tested case | Proved for ion exchange and for the carbon column with compounds one by one (the default). False of the competitive carbon analysis: the stored result is the last test, and the bands stay at the base run when chained assignments are lost (counterexamples proved); c38_gac_competitive_partial says exactly what is stored. | `c38_ion_exchange`, `c38_tests`, `c38_gac`, `c38_gac_tests`, `c38_gac_false`, `c38_gac_base_false`, `c38_gac_competitive_partial` |
| C39 | Ion-exchange uncertainty analysis leaves the model as it found it | False of the code: the influent index and time multiplier are overwritten (counterexample proved). c39_partial says when they survive, c39_other that everything else does. | `c39_false`, `c39_partial`, `c39_other` |
| C40 | Each uncertainty keyword perturbs the quantity it names | False of the code: in ion exchange ds, kL and dp do nothing and epor perturbs the bed void fraction; in the carbon column qn does nothing and in fouled water every test divides the surface diffusivity by 1e10 again (all proved). c40_partial and c38_gac cover the keywords that work. | `c40_no_effect`, `c40_epor_is_ebed`, `c40_false`, `c40_partial`, `c38_gac`, `c40_gac_qn`, `c40_gac_keywords`, `c40_gac_mass`, `c40_gac_fouled` |
| C42 | No fouling in organic-free water | False of the code for the classes with b1+b2 other than 1, such as pesticides (counterexample proved). c42_partial: the multiplier is constant, equal to b1+b2. | `c42_false`, `c42_partial`, `c42_used` |
| C45 | Scalar and array tortuosity agree | False of the code on a narrow window of times (counterexample proved); c45_partial gives the exact set of times where they agree, c45_close bounds the difference. | `c45_false`, `c45_partial`, `c45_close` |
| C53 | Fitting all compounds stores the best fit of every compound | run_all_smart: proved. run_all: false of the code for several compounds (only the last compound's fit survives; counterexample proved), proved for one compound. | `c53_smart`, `c53_smart_returns`, `c53_smart_flag`, `c53_run_all_false`, `c53_run_all_last`, `c53_run_all_partial`, `c53_run_all_one`, `c53_mp_last` |
| C57 | User-supplied mass-transfer coefficients are used as given; zero means correlation | False of the code: in fouled water a supplied ds is divided by 1e10 (counterexample proved). | `c57_false`, `c57_partial`, `c57_saved` |
| C59 | The recommended bed-rotation interval meets the target | False of the code when even a one-day interval misses the target (1 day and a zero curve are returned) and when more than five age groups run out of days; counterexamples proved, the rest proved. | `c59_partial`, `c59_curve`, `c59_false`, `c59_many_groups` |
| C62 | Hazard index sums all four contributions | False of the code: PFBS is not counted in the hazard index and a table without PFBS raises KeyError; proved what is computed and that tables with PFOA, PFOS and PFBS are processed. | `c62_partial`, `c62_false`, `c62_missing_pfbs`, `c62_processed` |
| C63 | Throughput study runs at the requested contact time | False of the code for contact times longer than the original (bed is sized to EBCT0^2/EBCT); proved for shorter ones, mass balance proved for all. | `c63_partial`, `c63_false`, `c63_long` |
| C65 | Particle diameter may be given with units | False of the code: the list form is scaled by 0.1 instead of 10, so the column is designed for grains a hundred times smaller (proved exactly); column diameter with units is right. | `c65_partial`, `c65_false`, `c65_column` |
| C70 | Every advertised lead-lag configuration runs | False of the code: 'gac-iex' runs nothing, and passing compounds to a mixed configuration is a TypeError (both proved); the other spellings are proved in any letter case. | `c70_partial`, `c70_false`, `c70_compounds`, `c70_error` |
| C71 | A shared flow rate given as a number or [value, unit] is applied | False of the code: a number raises TypeError and a list is stored whole; only a tuple works, and only if chained assignment reaches the table. | `c71_partial`, `c71_false` |
| C72 | Lead-lag run covers two swap intervals | False of the code: true exactly for intervals of ten days or more; shorter ones end in an error (proved). | `c72_partial`, `c72_false`, `c72_gac`, `c72_ix` |
| C73 | Selectivity adjustment applies to every compound in range | False of the code only at the upper threshold, where no factor is applied. | `c73_partial`, `c73_false` |
| C75 | Dose studies leave the PAC model as it was | False of the code: after a study the derived rows and epsilon are those of the last dose, so the next run is too, until the derived rows are recomputed. | `c75_partial`, `c75_same`, `c75_changed`, `c75_hrt`, `c75_sol2`, `c75_false` |
| C76 | PAC removal depends on the influent concentration through the isotherm | False of the code: the isotherm is evaluated at the concentration relative to the influent, so the loading is off by C0^(1-1/n) and the fraction removed does not depend on the influent concentration. | `c76_partial`, `c76_proportional`, `c76_false` |
| C80 | Contactor volume is consistent with geometry | False of the code: a length row left out raises AttributeError even when volume and height are stated. A length that is not a number works, but a stated aspect ratio is lost. | `c80_partial`, `c80_both`, `c80_height`, `c80_length`, `c80_negative`, `c80_no_length`, `c80_false` |
| C85 | Ion-exchange uncertainty analysis works whatever the time base of the influent table | False of the code: tables in days raise ValueError (proved); holds for hours with whole durations. | `c85_days_fail`, `c85_false`, `c85_partial` |
| C86 | Every film-transfer correlation gives a coefficient that grows with the flow | False of the code: 'Ohashi et al' returns a tuple (a trailing comma) and its values drop at both changes of range, and 'Ko et al' falls with the flow. Proved for the other seven and for unknown names. The columns use 'Chern and Chien'. | `c86_partial`, `c86_ko`, `c86_ohashi`, `c86_schmidt`, `c86_false` |
| C88 | Inside the carbon bead the rate of change is surface plus pore diffusion | False of the code in organic-free water with tortuosity other than 1 (counterexample proved). | `c88_partial`, `c88_fouled`, `c88_false` |
| C91 | Resin bead content is split between pore water and resin | False of the code when there are pores: pore water is counted twice (the source calls it an approximation). Counterexample proved; c91_partial gives the exact excess and the pore-free case. | `c91_false`, `c91_partial` |
| C92 | The GAC equations are the physical column equations | False of the code: film and diffusion terms carry the factor dgt/(1+dgt) because dgt is used for dg1 (counterexamples proved). The partial theorems hold with exactly that factor, the partition and conservation parts hold in full. | `c92_partition`, `c92_liquid_partial`, `c92_uptake`, `c92_bead_partial`, `c92_factor`, `c92_false`, `c92_bead_false` |
| C93 | The GAC column follows the influent table | Proved for tables whose times are whole minutes; false for rows at fractions of a minute (counterexample proved). | `c93_ends`, `c93_between`, `c93_in_range`, `c93_sample`, `c93_partial`, `c93_false` |
| C94 | Specific throughput is the water treated per mass of carbon | Values proved; the column specification is left as sized for the last contact time (counterexample proved). | `c94_values`, `c94_specs_partial`, `c94_specs_false` |
| C96 | Particle diameter of the large column may be given with units | False of the code: the list form is stored in cm, not mm (proved exactly, with the effect on the design). | `c96_partial`, `c96_false`, `c96_effect` |

### Further observations made while reading

Not stated as properties of their own, visible in the models:

* `__calculate_capacity`: with a single nonzero effluent sample the result is always of type `minimum` (the check at
  PSDM.py:452 compares a list with a number of entries that always differs); the "no mass" check at 438 cannot be
  reached; the linear branch with a time at or below zero overwrites the last effluent sample with the mean influent.
* `predict_full_scale_ds`: the cap at the influent (PSDM_tools.py:564) compares with a table that is still empty.
* `isotherm_fit`: the title of the plot shows the error of the first parameter for the second one too.
* PAC.py: the Biot number row uses the total capacity `Dg` instead of the solid one `Dgs`.
* Shiny-IEX/Ion_Exchange_Model.R: `J[1, ]`-type expressions drop dimensions, so the application cannot run with a single
  counter-ion (C137).
* GAC_Shiny_helper.py returns exceptions as values; the R side does not test for them, so the message a user sees comes
  from the plot that fails later.
* `run_psdm` computes `dstep` and `tstep`, which nothing reads.

## Axioms

From `#print axioms` on every theorem named in `MANIFEST.json`:

* `propext` only: `c165_false`, `c263_disturbs`.
* `propext, Quot.sound` only: `c165_latest`, `c263_closed`, `c263_newest`, `c263_page`, `c263_partial`, `c263_upload`, `c50_positions`, `c56_locator`.
* `none` only: `c188_column`, `c266_boxes`.
* `propext, Classical.choice, Quot.sound`: the other 1074, namely `az_rows_ocfe`, `az_rows_single`, `br_rows`, `c01_identity`, `c01_round_trip`, `c02_path_independent`, `c02_path_independent_compound`, `c02_round_trip_compound`, `c03_compound_factor_pos`, `c03_factor_pos`, `c03_order`, `c03_order_compound`, `c04_compound_factor`, `c04_compound_reject`, `c04_simple_reject`, `c04_simple_success`, `c04_unusable_text`, `c05_alias`, `c05_alias_compound`, `c06_approx_partial`, `c06_false`, `c06_metric_partial`, `c07_idempotent`, `c07_same_of_size`, `c07_units_irrelevant`, `c08_capacity`, `c08_q_as_qf`, `c08_round_trip`, `c09_loads`, `c09_velocity_from_flow`, `c09_velocity_wins`, `c100_false`, `c100_partial`, `c101_false`, `c101_partial`, `c102_false`, `c102_gac`, `c102_partial`, `c102_short`, `c103_gac`, `c103_ix`, `c103_steady`, `c104_false`, `c104_partial`, `c105_false`, `c105_mean`, `c105_partial`, `c106_names`, `c106_others`, `c106_twice`, `c106_value`, `c107_false`, `c107_hidden`, `c107_no_flow`, `c107_no_length`, `c107_partial`, `c108_conc`, `c108_flow`, `c108_length`, `c108_length_other`, `c108_time`, `c108_volume`, `c109_analyze`, `c109_doses`, `c10_explicit_unit`, `c10_load_save`, `c10_round_trip`, `c110_false`, `c110_partial`, `c111_false`, `c111_partial`, `c112_curve`, `c112_fraction`, `c113_initial`, `c113_matrix`, `c113_stationary`, `c114_capacity`, `c115_balance`, `c115_limit`, `c116_bead`, `c116_output`, `c116_pore`, `c116_profile`, `c116_surface`, `c117_false`, `c117_partial`, `c117_unknown`, `c118_false`, `c118_partial`, `c118_wrong`, `c119_false`, `c119_index`, `c119_negative`, `c119_partial`, `c119_tidy`, `c119_zero`, `c11_alpha_meaning`, `c11_alpha_range`, `c11_bicarbonate`, `c11_unit_irrelevant`, `c120_densest`, `c120_density`, `c120_viscosity`, `c121_column`, `c121_diffusivity`, `c121_film`, `c121_flow`, `c121_warnings`, `c122_hayduk`, `c122_stokes`, `c122_values`, `c122_wilke`, `c123_average`, `c123_balance`, `c123_freundlich`, `c123_grid`, `c123_signs`, `c124_false`, `c124_late`, `c124_partial`, `c124_zero`, `c125_false`, `c125_partial`, `c125_positive`, `c126_artificial`, `c126_code`, `c126_time`, `c126_unique`, `c127_false`, `c127_partial`, `c127_row`, `c128_between`, `c128_classes`, `c128_longer`, `c129_factors`, `c129_false`, `c129_fresh`, `c129_partial`, `c129_returns`, `c12_alkalinity_last_partial`, `c12_false`, `c12_partial`, `c130_base`, `c130_false`, `c130_fouled`, `c130_partial`, `c131_false`, `c131_ignored`, `c131_missing`, `c131_partial`, `c132_false`, `c132_partial`, `c132_small`, `c132_ties`, `c133_false`, `c133_partial`, `c133_stale`, `c133_unknown`, `c134_freundlich`, `c134_increasing`, `c134_langmuir`, `c134_redlich`, `c135_bands`, `c135_exact`, `c135_mean`, `c136_restart`, `c136_table`, `c137_false`, `c137_mixed`, `c137_partial`, `c137_stops`, `c138_check`, `c138_totals`, `c138_zeroed`, `c139_axis`, `c139_bedvolumes`, `c139_hours`, `c139_speed`, `c139_units`, `c13_false`, `c13_partial`, `c140_false`, `c140_mgd`, `c140_partial`, `c141_false`, `c141_hours`, `c141_linear`, `c141_partial`, `c141_years`, `c142_conc`, `c143_false`, `c143_partial`, `c144_false`, `c144_mismatch`, `c144_partial`, `c144_position`, `c145_back`, `c145_cc0`, `c145_meqL`, `c146_equilibrium`, `c146_fractions`, `c146_total`, `c147_false`, `c147_partial`, `c147_python`, `c147_units`, `c147_water`, `c148_all`, `c148_false`, `c148_once`, `c148_partial`, `c149_daily`, `c149_false`, `c149_partial`, `c149_whole`, `c14_constants`, `c14_first_derivative`, `c150_output`, `c150_returns`, `c150_run`, `c151_false`, `c151_partial`, `c151_text`, `c152_false`, `c152_keywords`, `c152_masstransfer`, `c152_table`, `c152_unchecked`, `c153_failed`, `c153_false`, `c153_partial`, `c154_axial`, `c154_axial_same`, `c154_radial`, `c154_radial_same`, `c154_single`, `c155_effluent`, `c155_rate`, `c155_solutions`, `c155_step`, `c155_weights`, `c155_weights_single`, `c156_rate`, `c156_seconds`, `c156_solutions`, `c156_step`, `c157_tracer`, `c158_false`, `c158_partial`, `c159_batch`, `c159_crank`, `c159_curve`, `c159_fraction`, `c159_missed`, `c15_second_derivative`, `c160_false`, `c160_partial`, `c160_position`, `c161_cc0`, `c161_menus`, `c161_shown`, `c162_false`, `c162_geometry`, `c162_menus`, `c162_partial`, `c162_run`, `c163_doses`, `c163_false`, `c163_partial`, `c164_cells`, `c164_false`, `c164_partial`, `c165_partial`, `c166_false`, `c166_partial`, `c166_rounded`, `c167_false`, `c167_partial`, `c168_conc`, `c168_curves`, `c168_false`, `c168_influent`, `c168_partial`, `c168_rows`, `c168_single`, `c168_wrong`, `c169_roundtrip`, `c169_twice`, `c16_radial`, `c170_false`, `c170_missing`, `c170_partial`, `c170_sheet`, `c170_velocity`, `c171_false`, `c171_partial`, `c171_rejects`, `c172_edits`, `c172_false`, `c172_partial`, `c172_zeros`, `c173_drawn`, `c173_false`, `c173_partial`, `c173_results`, `c174_edit`, `c174_false`, `c174_fit`, `c174_partial`, `c174_run`, `c175_false`, `c175_latest`, `c175_partial`, `c175_screen`, `c176_false`, `c176_nothing`, `c176_output`, `c176_partial`, `c176_wrong`, `c177_flow`, `c177_roundtrip`, `c177_settled`, `c178_checks`, `c178_drawn`, `c178_failed`, `c178_false`, `c178_partial`, `c178_relabel`, `c178_results`, `c179_blank`, `c179_false`, `c179_missing`, `c179_order`, `c179_partial`, `c179_shown`, `c179_single`, `c17_exact`, `c17_nodes_exist`, `c17_positive_sum`, `c180_influent`, `c180_one`, `c181_params`, `c181_transport`, `c182_false`, `c182_latest`, `c182_partial`, `c182_screen`, `c183_chosen`, `c183_false`, `c183_partial`, `c184_false`, `c184_grid`, `c184_partial`, `c185_false`, `c185_partial`, `c186_false`, `c186_ions`, `c186_partial`, `c186_reset`, `c186_text`, `c187_false`, `c187_partial`, `c187_raises`, `c188_false`, `c188_never`, `c188_partial`, `c189_false`, `c189_missing`, `c189_partial`, `c189_simulated`, `c18_axial_elements`, `c18_axial_single`, `c18_radial_laplacian`, `c18_weights`, `c190_false`, `c190_partial`, `c190_rows`, `c191_affine`, `c191_bound`, `c191_limit`, `c191_pattern`, `c192_chunks`, `c192_false`, `c192_optimising`, `c192_partial`, `c192_raise`, `c192_returns`, `c192_undone`, `c193_chunks`, `c193_false`, `c193_flag`, `c193_partial`, `c193_raise`, `c193_title`, `c194_false`, `c194_missing`, `c194_partial`, `c195_false`, `c195_limit`, `c195_partial`, `c195_shiny`, `c195_unfilled`, `c196_any`, `c196_false`, `c196_general`, `c196_partial`, `c197_false`, `c197_partial`, `c197_raise`, `c197_stretched`, `c197_table`, `c198_false`, `c198_flat`, `c198_line`, `c198_none`, `c198_partial`, `c198_rows`, `c198_thousand`, `c199_false`, `c199_one`, `c199_partial`, `c199_search`, `c19_constants`, `c19_grid`, `c19_inlet`, `c19_piecewise`, `c19_polynomials`, `c200_false`, `c200_partial`, `c200_replaced`, `c200_twice`, `c201_false`, `c201_initial`, `c201_other`, `c201_partial`, `c202_bed_volumes`, `c202_mode`, `c202_only`, `c202_raise`, `c202_run`, `c203_false`, `c203_needs`, `c203_partial`, `c203_volume`, `c204_close`, `c204_false`, `c204_partial`, `c204_trace`, `c205_batch`, `c205_column`, `c205_parts`, `c205_rough`, `c205_uniform`, `c206_array`, `c206_elements`, `c206_rows`, `c206_single`, `c207_hsdm`, `c207_psdm`, `c208_column`, `c209_batch_exists`, `c209_batch_start`, `c209_batch_unique`, `c209_exists`, `c209_inlet`, `c209_restart`, `c209_start`, `c209_unique`, `c20_ocfe_size`, `c210_batch`, `c210_batch_start`, `c210_column`, `c210_start`, `c211_column`, `c211_exists`, `c211_pac_exists`, `c211_pac_unique`, `c211_sampled`, `c211_unique`, `c212_final`, `c212_global`, `c212_limit`, `c212_rest`, `c212_start`, `c213_false`, `c213_partial`, `c213_point`, `c213_regression`, `c214_gac`, `c214_gac_start`, `c214_pac`, `c214_pac_start`, `c215_column`, `c215_sampled`, `c215_smooth`, `c215_tables`, `c216_gac`, `c216_gac_even`, `c216_gac_odd`, `c216_iex`, `c216_iex_odd`, `c217_batch`, `c217_batch_totals`, `c217_false`, `c217_negative`, `c217_partial`, `c217_resin`, `c217_threshold`, `c217_totals`, `c218_batch_rates`, `c218_batch_ratio`, `c218_batch_runs`, `c218_batch_start`, `c218_contact`, `c218_rates`, `c218_runs`, `c218_start`, `c218_unique`, `c219_constant`, `c219_design`, `c219_effluent`, `c219_groups`, `c219_proportional`, `c219_tables`, `c21_between`, `c21_const`, `c21_range`, `c21_tabulated`, `c21_total`, `c220_binary`, `c220_dilute`, `c220_equal`, `c220_exchange`, `c220_hsdm`, `c220_single`, `c220_start`, `c221_above`, `c221_alone`, `c221_below`, `c221_first`, `c221_gac`, `c221_gac_bed`, `c221_gac_below`, `c221_guess`, `c221_iast`, `c221_mirror`, `c221_same`, `c221_sooner`, `c222_displaced`, `c222_effluent`, `c222_exists`, `c222_fronts`, `c222_order`, `c222_unique`, `c223_after`, `c223_exact`, `c223_false`, `c223_partial`, `c223_raises`, `c224_false`, `c224_partial`, `c225_drift`, `c225_false`, `c225_partial`, `c226_search`, `c227_false`, `c227_partial`, `c227_smart`, `c228_effluent`, `c228_groups`, `c228_linear`, `c228_molar`, `c228_single`, `c228_units`, `c229_effluent`, `c229_groups`, `c229_rates`, `c22_monovalent`, `c230_false`, `c230_partial`, `c231_diffusivity`, `c231_false`, `c231_linear_partial`, `c231_pore`, `c231_water_partial`, `c232_batch`, `c232_batch_run`, `c232_column`, `c232_run`, `c233_column`, `c233_false`, `c233_partial`, `c233_run`, `c233_unique`, `c234_false`, `c234_partial`, `c234_presaturant`, `c234_run`, `c234_seeded`, `c234_undefined`, `c235_false`, `c235_ignored`, `c235_list`, `c235_partial`, `c235_refused`, `c236_rates`, `c236_run`, `c236_start`, `c237_false`, `c237_partial`, `c237_rates`, `c237_run`, `c237_start`, `c238_capacity`, `c238_dose`, `c238_film`, `c238_final`, `c238_helfferich`, `c239_rates`, `c239_run`, `c239_update`, `c23_divalent`, `c240_equal`, `c240_exchange`, `c240_run`, `c241_rates`, `c241_run`, `c241_start`, `c242_equal`, `c242_two`, `c243_falls`, `c243_study`, `c243_time`, `c244_ahead`, `c244_dose`, `c244_time`, `c245_equal`, `c245_two`, `c246_batch`, `c246_meaning`, `c246_pac`, `c247_equal`, `c247_two`, `c248_share`, `c249_similar`, `c249_size`, `c24_unique`, `c250_false`, `c250_partial`, `c250_text`, `c251_example`, `c251_order`, `c252_carbon`, `c252_false`, `c252_partial`, `c253_defaults`, `c253_example`, `c253_form`, `c253_known`, `c253_time`, `c254_example`, `c254_reads`, `c255_settles`, `c255_start`, `c256_mean`, `c257_forgets`, `c257_run`, `c258_pulse`, `c259_delay`, `c259_limit`, `c259_totals`, `c259_tracer`, `c25_no_divalent_loaded`, `c25_same`, `c260_area`, `c260_either`, `c260_near`, `c260_run`, `c261_area`, `c261_either`, `c261_near`, `c261_run`, `c262_area`, `c262_either`, `c262_equal`, `c262_exists`, `c262_near`, `c262_rest`, `c262_run`, `c262_slow`, `c263_false`, `c263_iex`, `c263_race`, `c263_use`, `c263_use_early`, `c263_use_own`, `c264_area`, `c264_either`, `c264_exists`, `c264_near`, `c264_run`, `c265_alike`, `c265_either`, `c265_equal`, `c265_near`, `c265_run`, `c265_spread`, `c265_trace`, `c265_two`, `c266_drawn`, `c266_even`, `c266_false`, `c266_lost`, `c266_measured`, `c266_none`, `c266_partial`, `c267_gain`, `c267_settles`, `c268_area`, `c268_exists`, `c268_train`, `c269_effluent`, `c269_ramp`, `c26_agree`, `c270_cycle`, `c270_mean`, `c270_step`, `c271_again`, `c271_digits`, `c271_exact`, `c271_false`, `c271_flow`, `c271_nearest`, `c271_partial`, `c271_run`, `c271_saved`, `c271_still`, `c271_zero`, `c272_either`, `c272_gain`, `c272_run`, `c272_tends`, `c273_either`, `c273_gain`, `c273_run`, `c273_tends`, `c274_either`, `c274_gain`, `c274_run`, `c274_tends`, `c275_cycle`, `c275_forget`, `c276_cycle`, `c276_forget`, `c277_gac`, `c277_gac_cycle`, `c277_gac_mean`, `c277_gac_near`, `c277_ion`, `c277_ion_cycle`, `c277_ion_mean`, `c277_ion_near`, `c278_effluent`, `c278_gac`, `c279_effluent`, `c279_ion`, `c27_false`, `c27_partial`, `c280_around`, `c280_square`, `c281_contracts`, `c281_limit`, `c281_passes`, `c281_steady`, `c282_fine`, `c282_sampled`, `c283_contracts`, `c283_forgets`, `c283_passes`, `c283_relay`, `c283_settles`, `c283_square`, `c284_batch`, `c284_batch_monovalent`, `c284_column`, `c284_monovalent`, `c284_nopores`, `c284_runs`, `c284_web`, `c285_coefficient`, `c285_correlated`, `c285_false`, `c285_partial`, `c285_removable`, `c286_batch`, `c286_below`, `c286_divalent`, `c286_false`, `c286_negative`, `c286_partial`, `c286_vessel`, `c286_web`, `c287_curved`, `c287_effective`, `c287_fouled`, `c287_fouling_tells`, `c287_linear`, `c287_runs`, `c28_rates`, `c28_schemes`, `c28_solutions`, `c28_total_is_Q`, `c29_bead`, `c29_exchange`, `c30_advection_only`, `c30_uniform`, `c31_steady`, `c32_conserved`, `c32_solutions`, `c32_totals`, `c33_batch`, `c33_column`, `c33_divalent_presaturant`, `c33_restart`, `c34_entries`, `c34_safe`, `c35_bed_volumes`, `c35_monotone`, `c35_time`, `c36_positive`, `c37_false`, `c37_partial`, `c37_table`, `c38_gac`, `c38_gac_base_false`, `c38_gac_competitive_partial`, `c38_gac_false`, `c38_gac_tests`, `c38_ion_exchange`, `c38_tests`, `c39_false`, `c39_other`, `c39_partial`, `c40_epor_is_ebed`, `c40_false`, `c40_gac_fouled`, `c40_gac_keywords`, `c40_gac_mass`, `c40_gac_qn`, `c40_no_effect`, `c40_partial`, `c41_antitone`, `c41_floor`, `c41_fouling_k`, `c41_unlisted`, `c41_used`, `c42_false`, `c42_partial`, `c42_used`, `c43_classes`, `c43_full`, `c43_start`, `c44_ge_one`, `c44_monotone`, `c45_close`, `c45_false`, `c45_partial`, `c46_capacity`, `c46_pos`, `c46_same`, `c46_twice`, `c47_ecm`, `c47_ecm_molar`, `c47_molar`, `c48_empty`, `c48_nonneg`, `c48_single`, `c49_bead`, `c49_exchange`, `c49_inlet`, `c50_injective`, `c50_safe`, `c51_again`, `c51_clean`, `c51_exception`, `c51_restored`, `c51_sequence`, `c52_again`, `c52_clean`, `c52_exception`, `c52_restored`, `c52_returns`, `c53_mp_last`, `c53_run_all_false`, `c53_run_all_last`, `c53_run_all_one`, `c53_run_all_partial`, `c53_smart`, `c53_smart_flag`, `c53_smart_returns`, `c54_coarse_step`, `c54_grids`, `c54_search`, `c54_zero_width`, `c55_hydraulics`, `c55_reset`, `c55_void`, `c56_between`, `c56_nonneg`, `c56_unchanged`, `c57_false`, `c57_partial`, `c57_saved`, `c58_groups`, `c58_nonneg`, `c58_sum`, `c59_curve`, `c59_false`, `c59_many_groups`, `c59_partial`, `c60_compound`, `c60_daily`, `c60_hazard`, `c61_bracket`, `c62_false`, `c62_missing_pfbs`, `c62_partial`, `c62_processed`, `c63_false`, `c63_long`, `c63_partial`, `c64_scaling`, `c65_column`, `c65_false`, `c65_partial`, `c66_gpm`, `c66_meaning`, `c66_same`, `c67_between`, `c67_decreasing`, `c67_order`, `c67_raises`, `c68_agree`, `c68_all`, `c68_run`, `c68_single`, `c68_zone`, `c69_balance`, `c69_first`, `c70_compounds`, `c70_error`, `c70_false`, `c70_partial`, `c71_false`, `c71_partial`, `c72_false`, `c72_gac`, `c72_ix`, `c72_partial`, `c73_false`, `c73_partial`, `c74_rate`, `c74_schemes`, `c74_solutions`, `c74_weights`, `c75_changed`, `c75_false`, `c75_hrt`, `c75_partial`, `c75_same`, `c75_sol2`, `c76_false`, `c76_partial`, `c76_proportional`, `c77_limit`, `c77_monotone`, `c77_ode`, `c77_start`, `c77_steady`, `c78_fraction`, `c79_ends`, `c79_reached`, `c79_study`, `c80_both`, `c80_false`, `c80_height`, `c80_length`, `c80_negative`, `c80_no_length`, `c80_partial`, `c81_bracket`, `c81_increasing`, `c82_influent`, `c82_rates`, `c82_solutions`, `c82_times`, `c83_kfit`, `c83_mult`, `c83_ssq`, `c83_sum`, `c84_compound_metric`, `c84_conc_exact`, `c84_factor_correct`, `c85_days_fail`, `c85_false`, `c85_partial`, `c86_false`, `c86_ko`, `c86_ohashi`, `c86_partial`, `c86_schmidt`, `c87_iast`, `c88_false`, `c88_fouled`, `c88_partial`, `c89_all`, `c89_capacity`, `c89_pure`, `c89_quotient`, `c89_simple`, `c90_batch_hsdm`, `c90_batch_psdm`, `c90_film_hsdm`, `c90_film_psdm`, `c90_hsdm`, `c90_psdm`, `c91_false`, `c91_partial`, `c92_bead_false`, `c92_bead_partial`, `c92_factor`, `c92_false`, `c92_liquid_partial`, `c92_partition`, `c92_uptake`, `c93_between`, `c93_ends`, `c93_false`, `c93_in_range`, `c93_partial`, `c93_sample`, `c94_specs_false`, `c94_specs_partial`, `c94_values`, `c95_density`, `c95_flow`, `c95_length`, `c95_loading`, `c95_mass`, `c95_time`, `c96_effect`, `c96_false`, `c96_partial`, `c97_after`, `c97_before`, `c97_between`, `c97_sorted`, `c98_front`, `c98_jump`, `c98_speed`, `c98_together`, `c99_bvf`, `c99_days`, `c99_default`, `c99_sstc`, `c99_units`, `c99_usage`, `cpore_eq`, `differentiates_elements`, `differentiates_single`, `mixPhysical_setting`, `spent_exists`, `spent_unique`, `surf_negative`.
