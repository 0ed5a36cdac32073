{"id": "C01", "title": "Unit conversion round trip", "statement": "For every ion-exchange unit table (length, volume, time, area, weight, concentration) and any two units the table accepts, the factor from a to b times the factor from b to a is exactly 1, the factor from a unit to itself is 1, and converting a value to another unit and back returns the value.", "quantifier": "all six tables, all ordered pairs of accepted units, all values, all molecular weights and valences > 0 for concentrations", "why_tests_cant": "hundreds of unit pairs times arbitrary real values and molecular weights; a test fixes a few pairs", "anchors": ["IonExchangeModel/ixpy/paramsheets.py: conv_units, conv_length, conv_volume, conv_time, conv_area, conv_weight, conv_conc"]}
{"id": "C02", "title": "Unit conversion is path independent", "statement": "Converting a value from unit a to b and then b to c gives the same value as converting a to c directly, for every unit table and for the compound units (flow, velocity, density, diffusivity, capacity).", "quantifier": "all tables, all triples of accepted units, all values", "why_tests_cant": "cubic number of unit triples over arbitrary values", "anchors": ["IonExchangeModel/ixpy/paramsheets.py: conv_units, conv_vol_per_time, conv_vel, conv_dens, conv_area_per_time, conv_capacity_mass, conv_capacity_vol"]}
{"id": "C03", "title": "Unit conversion preserves sign, zero and order", "statement": "Every conversion factor is strictly positive, so converting never changes the sign of a value, never turns zero into something else, and keeps the order of two values.", "quantifier": "all tables, all accepted unit pairs, all real values", "why_tests_cant": "quantifies over all real values and, for concentrations, all positive molecular weights and valences", "anchors": ["IonExchangeModel/ixpy/paramsheets.py: conv_units and the conv_* tables"]}
{"id": "C04", "title": "Compound units convert by numerator over denominator, and unusable unit text never yields a number", "statement": "For 'x/y' text the factor is the factor of x divided by the factor of y; 'gpm' means gallons per minute for flows; text with neither '/' nor 'gpm', or whose parts are not accepted, never produces a conversion factor (the call fails or asks again).", "quantifier": "all strings used as source and target unit of a compound quantity", "why_tests_cant": "ranges over all strings", "anchors": ["IonExchangeModel/ixpy/paramsheets.py: conv_vol_per_time, conv_vel, conv_dens, conv_area_per_time, conv_capacity_mass, conv_capacity_vol, conv_units"]}
{"id": "C05", "title": "Alternative spellings of a unit are interchangeable", "statement": "L and l, cm3 and ml, ft3 and cuf, lb/lbs/lbm, days/day/d, hours/hour/hr/h, min/m, sec/s/seconds give identical results wherever they are accepted, as source or as target.", "quantifier": "all alias pairs, all partner units, all values", "why_tests_cant": "every alias pair against every partner unit and value", "anchors": ["IonExchangeModel/ixpy/paramsheets.py: conv_length, conv_volume, conv_time, conv_weight"]}
{"id": "C06", "title": "Length, area and volume tables agree with each other", "statement": "For a length unit x that also has x2 and x3 units, converting a cube of side s in x gives the same volume as converting s to the other length unit and cubing it (and likewise for areas).", "quantifier": "all pairs of length units having area and volume counterparts, all side lengths", "why_tests_cant": "a numeric test would use a tolerance and hide the disagreement; the exact statement needs a proof or a refutation", "anchors": ["IonExchangeModel/ixpy/paramsheets.py: conv_length, conv_area, conv_volume"]}
{"id": "C07", "title": "The parameter sheet means the same thing whatever units it is written in", "statement": "Two parameter sheets that state the same physical quantities in different accepted units give identical simulation parameters; a sheet already in base units is left unchanged.", "quantifier": "all parameter sheets with recognised names and units", "why_tests_cant": "arbitrary sheets, arbitrary values and unit choices per row", "anchors": ["IonExchangeModel/ixpy/paramsheets.py: conv_params, conv_params_data"]}
{"id": "C08", "title": "Resin capacity can be entered in any of three equivalent ways", "statement": "Entering the bead capacity Q, or the bed capacity Qf = Q(1-EBED), or Qm and RHOP with Qm*RHOP = Q, gives the same bead capacity in the simulation, and when Qm and RHOP are both present they take precedence over Qf.", "quantifier": "all real capacities, all bed porosities != 1, all densities", "why_tests_cant": "real-valued inputs", "anchors": ["IonExchangeModel/ixpy/paramsheets.py: Q_calc, conv_params_data", "IonExchangeModel/ixpy/hsdmix.py: load_data"]}
{"id": "C09", "title": "Flow rate and diameter determine the linear velocity; an explicit velocity wins", "statement": "If only flow rate and diameter are given the velocity used is flow / (pi d^2/4) in cm/s; if a velocity is given it is used unchanged whatever the flow rate says.", "quantifier": "all flow rates, diameters and velocities, all accepted units", "why_tests_cant": "real-valued inputs and unit choices", "anchors": ["IonExchangeModel/ixpy/paramsheets.py: conv_fr_to_vel, conv_params_data"]}
{"id": "C10", "title": "Influent concentrations survive load and default save", "statement": "Converting influent concentrations to meq/L on load and back on save (no units argument) reproduces the input numbers, for every ion, unit, molecular weight and valence; saving in an explicit unit differs from the default only by that unit's factor.", "quantifier": "all ions, units, positive molecular weights and valences, all concentrations", "why_tests_cant": "real-valued inputs, all units", "anchors": ["IonExchangeModel/ixpy/hsdmix.py: load_data, save_results", "IonExchangeModel/ixpy/paramsheets.py: conv_conc, conv_database"]}
{"id": "C11", "title": "Alkalinity becomes bicarbonate by the carbonate equilibrium, independent of units", "statement": "When ALKALINITY and PH are given the simulated bicarbonate in meq/L equals alpha(pH) times the alkalinity in meq/L with 0 < alpha < 1, whatever concentration unit alkalinity was entered in; alpha is the bicarbonate fraction of total carbonate.", "quantifier": "all alkalinities, all pH values, all concentration units", "why_tests_cant": "real-valued pH and alkalinity", "anchors": ["IonExchangeModel/ixpy/hsdmix.py: load_data"]}
{"id": "C12", "title": "Each ion is simulated with its own valence", "statement": "The valence used for an ion in the simulation is the valence stated for that ion in the ions table, and for bicarbonate derived from alkalinity it is 1.", "quantifier": "all ion tables and orders", "why_tests_cant": "all tables and orderings of ions", "anchors": ["IonExchangeModel/ixpy/hsdmix.py: load_data (self.valences)", "IonExchangeModel/ixpy/psdmix.py: load_data"]}
{"id": "C13", "title": "Film coefficient and diffusivities given in the parameter sheet are converted like other parameters", "statement": "A kL (or Ds, Dp) stated once in the parameter sheet, in any accepted unit, gives every ion that coefficient in cm/s (cm2/s).", "quantifier": "all accepted velocity/diffusivity units, all values, all ion tables", "why_tests_cant": "all units and values", "anchors": ["IonExchangeModel/ixpy/hsdmix.py: load_data lines 117-124", "IonExchangeModel/ixpy/paramsheets.py: conv_vel, conv_area_per_time"]}
{"id": "C14", "title": "Collocation first-derivative matrix is exact on polynomials", "statement": "For any set of n distinct nodes the first-derivative matrix maps the values of any polynomial of degree < n at the nodes to the values of its derivative at the nodes; in particular constants map to zero.", "quantifier": "all n, all node sets, all polynomials of degree < n", "why_tests_cant": "infinitely many node sets and polynomials; tests compare a few n against tables with tolerance", "anchors": ["IonExchangeModel/ixpy/colloc.py: recur, calc_px_column, recur_colloc", "Shiny-PAC/PAC.py: recur_colloc"]}
{"id": "C15", "title": "Collocation second-derivative matrix is exact on polynomials", "statement": "For any set of n distinct nodes the second-derivative matrix maps nodal values of any polynomial of degree < n to nodal values of its second derivative.", "quantifier": "all n, all node sets, all polynomials of degree < n", "why_tests_cant": "as C14", "anchors": ["IonExchangeModel/ixpy/colloc.py: recur_colloc", "Shiny-PAC/PAC.py: recur_colloc"]}
{"id": "C16", "title": "Radial operators are exact on even polynomials", "statement": "For any n distinct nonnegative squared-radius nodes and geometry exponent a (1 slab, 2 cylinder, 3 sphere) the radial first-derivative and Laplacian matrices reproduce f' and f'' + (a-1)/r f' for every even polynomial of degree < 2n.", "quantifier": "all n, node sets, a, even polynomials", "why_tests_cant": "as C14", "anchors": ["IonExchangeModel/ixpy/colloc.py: recur_colloc_symm", "Shiny-PAC/PAC.py: recur_colloc_symm"]}
{"id": "C17", "title": "Radial quadrature weights", "statement": "The weights are positive and sum to 1/a; when the interior nodes are the zeros of the Jacobi polynomial the code asks for, the weights integrate x^(a-1) f(x) over [0,1] exactly for every even polynomial f of degree <= 4n-4.", "quantifier": "all n, a >= 1, all even polynomials up to degree 4n-4", "why_tests_cant": "infinite family; the tests compare 3-point tables", "anchors": ["IonExchangeModel/ixpy/colloc.py: recur_colloc_symm", "Shiny-PAC/PAC.py: recur_colloc_symm, Qinv_weights_symm"]}
{"id": "C18", "title": "Matrix-inversion collocation (PSDM) agrees with the recurrence (IX)", "statement": "The PSDM axial derivative matrix built by inverting a Vandermonde matrix (in x or in 2x-1) and the ion-exchange matrix built by recurrence are the same matrix for the same nodes; likewise the radial Laplacian and the quadrature weights.", "quantifier": "all n, all distinct node sets", "why_tests_cant": "all node sets, all n", "anchors": ["PSDM/psdm/PSDM_functions.py: calc_solver_matrix (build_colloc, dspoly, dupoly)", "IonExchangeModel/ixpy/colloc.py: recur_colloc, recur_colloc_symm"]}
{"id": "C19", "title": "Axial operator on finite elements", "statement": "The multi-element axial operator has an identically zero inlet row, maps constants to zero, is exact on every polynomial of degree < points-per-element at every grid point other than the inlet (element interiors, interfaces and outlet), and its grid has NE*NP-(NE-1) strictly increasing points from 0 to 1.", "quantifier": "all element counts >= 1, all points per element >= 2, all polynomials of degree < NP", "why_tests_cant": "unbounded in the number of elements and polynomials", "anchors": ["IonExchangeModel/ixpy/colloc.py: advect_operator", "PSDM/psdm/PSDM_functions.py: advect_operator"]}
{"id": "C20", "title": "Element mode needs an odd number of axial points", "statement": "With OCFE the operator has the same number of grid points as the state iff nz is odd; for even nz the sizes differ by one (and the run cannot proceed).", "quantifier": "all nz >= 1", "why_tests_cant": "all natural numbers", "anchors": ["IonExchangeModel/ixpy/hsdmix.py: solve (OCFE branch)", "IonExchangeModel/ixpy/colloc.py: advect_operator"]}
{"id": "C21", "title": "Influent time series is followed", "statement": "At a tabulated time the simulated influent equals the tabulated value, between two tabulated times it lies between their values, times outside the table are refused, and the total influent interpolates the tabulated totals.", "quantifier": "all tables with increasing times, all query times", "why_tests_cant": "all tables and times", "anchors": ["IonExchangeModel/ixpy/hsdmix.py: solve (get_Cin)", "IonExchangeModel/ixpy/psdmix.py: solve"]}
{"id": "C22", "title": "Monovalent equilibrium: electroneutrality, selectivity, positivity", "statement": "With no divalent ion the surface liquid concentrations sum to the local total, every pair of ions satisfies the separation-factor law, and they are nonnegative whenever the resin loadings are nonnegative and not all zero.", "quantifier": "all ion counts, loadings, positive selectivities, totals", "why_tests_cant": "real-valued inputs, any number of ions", "anchors": ["IonExchangeModel/ixpy/hsdmix.py: calc_Ceq_mv", "IonExchangeModel/ixpy/psdmix.py: calc_Ceq_mv"]}
{"id": "C23", "title": "Divalent equilibrium: electroneutrality and selectivity", "statement": "For ions of valence 1 or 2 with a monovalent reference ion of selectivity 1 and positive reference loading, the computed surface concentrations sum to the local total concentration, each satisfies q_i = K_i C_i (q_ref/C_ref)^z_i, and all are nonnegative; the reference concentration lies in (0, CT].", "quantifier": "all ion counts, valences in {1,2}, loadings, totals", "why_tests_cant": "real-valued inputs", "anchors": ["IonExchangeModel/ixpy/hsdmix.py: calc_Ceq_dv", "IonExchangeModel/ixpy/psdmix.py: calc_Ceq_dv"]}
{"id": "C24", "title": "Divalent equilibrium solution is the only admissible one", "statement": "There is exactly one nonnegative reference-ion concentration for which the selectivity law and the total-concentration constraint both hold, and it is the one computed.", "quantifier": "all loadings, totals", "why_tests_cant": "uniqueness over the reals", "anchors": ["IonExchangeModel/ixpy/hsdmix.py: calc_Ceq_dv"]}
{"id": "C25", "title": "Column and batch equilibrium formulas agree", "statement": "The form used by the column models and the textbook quadratic formula used by the batch models give the same reference concentration whenever some divalent ion is on the resin; when none is, the column form gives the monovalent answer and the batch form is a division by zero.", "quantifier": "all loadings and totals", "why_tests_cant": "real-valued; includes the singular limit", "anchors": ["IonExchangeModel/ixpy/hsdmix.py: calc_Ceq_dv", "IonExchangeModel/ixpy/hsdmixbatch.py: calc_Ceq_dv", "IonExchangeModel/ixpy/psdmixbatch.py: calc_Ceq_dv"]}
{"id": "C26", "title": "Divalent and monovalent formulas agree when there is no divalent ion", "statement": "If every ion is monovalent and the reference ion has selectivity 1, both equilibrium formulas give the same concentrations.", "quantifier": "all ion counts and loadings", "why_tests_cant": "real-valued", "anchors": ["IonExchangeModel/ixpy/hsdmix.py: calc_Ceq_dv, calc_Ceq_mv"]}
{"id": "C27", "title": "Electroneutrality holds for every valence table the user may enter", "statement": "For any valences in the ions table the surface concentrations computed by the column models sum to the local total.", "quantifier": "all valence tables (positive integers) with a divalent ion present", "why_tests_cant": "all valence tables", "anchors": ["IonExchangeModel/ixpy/hsdmix.py: calc_Ceq_dv"]}
{"id": "C28", "title": "Total resin charge is conserved everywhere (column)", "statement": "In both column ion-exchange models the sum over ions of the resin-phase time derivative is zero at every axial point and radial point, for every state; hence along every solution, and for every consistent time-stepping scheme, the total resin loading stays at its initial value (Q).", "quantifier": "all states, grids, parameters, times, histories of steps", "why_tests_cant": "all states and all step sequences", "anchors": ["IonExchangeModel/ixpy/hsdmix.py: diffun", "IonExchangeModel/ixpy/psdmix.py: diffun"]}
{"id": "C29", "title": "Bead mass balance (column)", "statement": "For every ion, axial point and state, the quadrature-weighted rate of change of bead loading times 3 equals minus surface flux times specific area (3/rb): what leaves the bead enters the liquid and vice versa.", "quantifier": "all states, ions, axial points, parameters", "why_tests_cant": "all states", "anchors": ["IonExchangeModel/ixpy/hsdmix.py: diffun", "IonExchangeModel/ixpy/psdmix.py: diffun"]}
{"id": "C30", "title": "Total liquid concentration stays uniform (column)", "statement": "If the total liquid concentration is the same at all axial points, its time derivative is zero at every point, so ion exchange never creates or destroys total liquid equivalents.", "quantifier": "all states with uniform total, all axial operators annihilating constants", "why_tests_cant": "all states", "anchors": ["IonExchangeModel/ixpy/hsdmix.py: diffun", "IonExchangeModel/ixpy/psdmix.py: diffun"]}
{"id": "C31", "title": "A column in equilibrium with its influent does not change", "statement": "If the liquid equals the influent everywhere, bead loadings are radially uniform, and the surface equilibrium concentration equals the liquid, every time derivative is zero.", "quantifier": "all parameters and such states", "why_tests_cant": "all parameters", "anchors": ["IonExchangeModel/ixpy/hsdmix.py: diffun", "IonExchangeModel/ixpy/psdmix.py: diffun"]}
{"id": "C32", "title": "Batch models conserve each ion", "statement": "In the batch ion-exchange models the amount of each ion in the water plus the amount in the beads (VL*C + 3*VR*sum(W q)) has zero time derivative for every state; the total water concentration is invariant when the resin total is.", "quantifier": "all states, parameters", "why_tests_cant": "all states", "anchors": ["IonExchangeModel/ixpy/hsdmixbatch.py: diffun", "IonExchangeModel/ixpy/psdmixbatch.py: diffun"]}
{"id": "C33", "title": "Initial state is consistent", "statement": "At time zero the resin total equals Q at every point of the bead (column and batch, including batch divalent seeding when the presaturant is not itself divalent; if it is, the batch total is Q - Q/1000) and in the column the liquid total equals the influent total at every axial point.", "quantifier": "all ion tables, capacities, influents", "why_tests_cant": "all ion tables", "anchors": ["IonExchangeModel/ixpy/hsdmix.py: solve", "IonExchangeModel/ixpy/psdmix.py: solve", "IonExchangeModel/ixpy/hsdmixbatch.py: solve", "IonExchangeModel/ixpy/psdmixbatch.py: solve"]}
{"id": "C34", "title": "Ion-exchange Jacobian sparsity pattern is safe", "statement": "Whenever a derivative component really depends on a state component, the pattern handed to the solver marks that entry; all entries are 0 or 1 and the matrix is square of the state size.", "quantifier": "all nr, number of ions, nz; all states", "why_tests_cant": "unbounded dimensions; missing entries silently corrupt Newton steps", "anchors": ["IonExchangeModel/ixpy/hsdmix.py: approx_Jac_struc, diffun"]}
{"id": "C35", "title": "Reported times", "statement": "save_results reports each output time in the requested period exactly (hours, days, min, sec), reports bed volumes as t*v/L, and the reported times are increasing in solver time.", "quantifier": "all times, velocities, lengths, periods", "why_tests_cant": "real-valued", "anchors": ["IonExchangeModel/ixpy/hsdmix.py: save_results, solve"]}
{"id": "C36", "title": "Effluent table from conv_iex_u is strictly positive", "statement": "Every entry returned is > 0, entries that were positive are unchanged apart from unit scaling.", "quantifier": "all result arrays, ions tables", "why_tests_cant": "all arrays", "anchors": ["IonExchangeModel/ixpy/converter.py: conv_iex_u", "PSDM/psdm/lead_lag_class.py: conv_iex_u"]}
{"id": "C37", "title": "conv_iex_u reports effluent in the units of the influent", "statement": "For every ion and unit, converting the simulated meq/L effluent with conv_iex_u inverts the conversion applied to the influent on load.", "quantifier": "all units, valences, molecular weights", "why_tests_cant": "all units and valences", "anchors": ["IonExchangeModel/ixpy/converter.py: conv_iex_u", "IonExchangeModel/ixpy/hsdmix.py: load_data", "IonExchangeModel/ixpy/paramsheets.py: conv_conc"]}
{"id": "C38", "title": "Uncertainty band contains the base case and every tested case", "statement": "In the ion-exchange and GAC uncertainty analyses, lower <= base <= upper pointwise and every perturbed run lies within [lower, upper], and each bound is attained by the base or some run.", "quantifier": "all numbers of perturbations, all results", "why_tests_cant": "any number of runs, arbitrary results", "anchors": ["IonExchangeModel/ixpy/hsdmix.py: model_uncertainty", "IonExchangeModel/ixpy/psdmix.py: model_uncertainty_PSDM", "PSDM/psdm/PSDM.py: model_uncertainty"]}
{"id": "C39", "title": "Ion-exchange uncertainty analysis leaves the model as it found it", "statement": "After model_uncertainty returns, the object's influent time index, time multiplier and parameters are what they were before the call.", "quantifier": "all models, both time bases", "why_tests_cant": "all initial states", "anchors": ["IonExchangeModel/ixpy/hsdmix.py: model_uncertainty"]}
{"id": "C40", "title": "Each uncertainty keyword perturbs the quantity it names", "statement": "The perturbed runs for keyword x differ from the base run's inputs in the physical quantity named by x, scaled by 1 +/- p/100, and in nothing else used by the simulation.", "quantifier": "all keywords and percentages", "why_tests_cant": "all keywords and values", "anchors": ["IonExchangeModel/ixpy/hsdmix.py: model_uncertainty, solve", "IonExchangeModel/ixpy/psdmix.py: model_uncertainty_PSDM", "PSDM/psdm/PSDM.py: model_uncertainty"]}
{"id": "C41", "title": "Fouling multiplier is bounded below and never increases", "statement": "For every natural water and chemical class in the table, the multiplier is at least 0.001 at all times and non-increasing in time.", "quantifier": "all waters, all chemical classes and compounds, all times", "why_tests_cant": "all real times, full table", "anchors": ["PSDM/psdm/PSDM_functions.py: foul_params, fouling_k", "PSDM/psdm/PSDM.py: __get_fouling_params, __fouled_k_new"]}
{"id": "C42", "title": "No fouling in organic-free water", "statement": "With water_type 'Organic Free' the capacity multiplier is 1 at all times for every chemical class.", "quantifier": "all chemical classes, all times", "why_tests_cant": "full table, all times", "anchors": ["PSDM/psdm/PSDM_functions.py: foul_params", "PSDM/psdm/PSDM.py: __get_fouling_params"]}
{"id": "C43", "title": "Fouling starts from full capacity", "statement": "At time zero the multiplier equals b1+b2 of the chemical class for every water, so it is 1 exactly for the classes with b1+b2=1.", "quantifier": "all waters and chemical classes", "why_tests_cant": "full table", "anchors": ["PSDM/psdm/PSDM_functions.py: foul_params", "PSDM/psdm/PSDM.py: __get_fouling_params"]}
{"id": "C44", "title": "Tortuosity is at least 1 and non-decreasing", "statement": "For any time the array form of tortuosity is >= 1 and non-decreasing in time.", "quantifier": "all times", "why_tests_cant": "all reals", "anchors": ["PSDM/psdm/PSDM_functions.py: tortuosity"]}
{"id": "C45", "title": "Scalar and array tortuosity agree", "statement": "The value for a single time equals the value for an array containing that time.", "quantifier": "all times", "why_tests_cant": "all reals; they differ on a narrow window", "anchors": ["PSDM/psdm/PSDM_functions.py: tortuosity"]}
{"id": "C46", "title": "Rescaling K to a new 1/n keeps the capacity at the reference concentration", "statement": "If q = K C^(1/n), the rescaled K' for a new exponent satisfies q = K' C^(1/n'), rescaling to the same exponent changes nothing, and rescaling twice equals rescaling once.", "quantifier": "all positive K, C and exponents", "why_tests_cant": "real-valued", "anchors": ["PSDM/psdm/PSDM_functions.py: recalc_k", "PSDM/psdm/PSDM.py: run_all, run_psdm_kfit"]}
{"id": "C47", "title": "Freundlich unit change is consistent", "statement": "The molar K computed by the column model satisfies q/MW = K_molar (C/MW)^(1/n) exactly when q = K C^(1/n); same for the equilibrium column model's 'mass' option.", "quantifier": "all positive MW, K, C, 1/n", "why_tests_cant": "real-valued", "anchors": ["PSDM/psdm/PSDM.py: run_psdm (molar_k)", "PSDM/psdm/ecm.py: _process_input_file"]}
{"id": "C48", "title": "Single-component competitive equilibrium reduces to Freundlich", "statement": "With one component, and with no fouling, the pore concentration used in the column equals the Freundlich liquid concentration for the local loading; pore concentrations are always nonnegative.", "quantifier": "all loadings, exponents, states", "why_tests_cant": "real-valued", "anchors": ["PSDM/psdm/PSDM.py: run_psdm diffun", "PSDM/psdm/ecm.py: _fcn2"]}
{"id": "C49", "title": "Carbon bead mass balance", "statement": "In the GAC column right-hand side, for every compound and axial point, the quadrature-weighted rate of change of bead loading equals the film flux into the bead.", "quantifier": "all states, compounds, axial points, times", "why_tests_cant": "all states", "anchors": ["PSDM/psdm/PSDM.py: run_psdm diffun"]}
{"id": "C50", "title": "GAC Jacobian sparsity pattern is safe", "statement": "Whenever a derivative component depends on a state component, the sparsity pattern handed to the solver marks that entry.", "quantifier": "all nr, nz, ne, numbers of compounds, all states", "why_tests_cant": "unbounded dimensions", "anchors": ["PSDM/psdm/PSDM_functions.py: spar_Jac", "PSDM/psdm/PSDM.py: run_psdm diffun"]}
{"id": "C51", "title": "A single-compound run leaves the column object as it was", "statement": "After run_psdm_kfit returns, geometry, influent/effluent data, K and 1/n table, compound list and shapes equal the stored originals; running it again gives the same result.", "quantifier": "all column states, compounds, sequences of calls", "why_tests_cant": "all sequences of calls", "anchors": ["PSDM/psdm/PSDM.py: run_psdm_kfit, __set_backups, __reset_column_values"]}
{"id": "C52", "title": "GAC uncertainty analysis leaves the column object as it was", "statement": "After model_uncertainty returns, geometry, derived hydraulics, data, K table and compound list equal those before the call, for any list of perturbations.", "quantifier": "all states, perturbation lists", "why_tests_cant": "all perturbation lists", "anchors": ["PSDM/psdm/PSDM.py: model_uncertainty, __set_backups, __reset_column_values"]}
{"id": "C53", "title": "Fitting all compounds stores the best fit of every compound", "statement": "After run_all (or run_all_smart) over a list of compounds, the K and 1/n stored for each compound are the best found for that compound.", "quantifier": "all compound lists, all fit outcomes", "why_tests_cant": "all lists of compounds", "anchors": ["PSDM/psdm/PSDM.py: run_all, run_all_smart, run_psdm_kfit, run_all_MP"]}
{"id": "C54", "title": "The smart search always stops, in bounds, with the best point seen", "statement": "For any error surface the search performs at most max(1, search_limit) moves, never indexes outside the grid, and the stored K, 1/n are those of the smallest error evaluated.", "quantifier": "all error surfaces, grid sizes, search limits", "why_tests_cant": "all error surfaces", "anchors": ["PSDM/psdm/PSDM.py: run_all_smart"]}
{"id": "C55", "title": "Derived column quantities are consistent", "statement": "flow*EBCT = bed volume, superficial velocity*area*60 = flow, void fraction in (0,1) iff 0 < apparent density < particle density, tau = 60*void*EBCT; and they are the same after any reset.", "quantifier": "all positive geometries", "why_tests_cant": "real-valued", "anchors": ["PSDM/psdm/PSDM.py: __init__, __reset_column_values"]}
{"id": "C56", "title": "Effluent is never reported negative", "statement": "Every effluent value in the results tables is >= 0, and a value that was nonnegative is reported unchanged apart from unit scaling.", "quantifier": "all solver outputs", "why_tests_cant": "all arrays", "anchors": ["PSDM/psdm/PSDM.py: run_psdm"]}
{"id": "C57", "title": "User-supplied mass-transfer coefficients are used as given; zero means correlation", "statement": "A positive kf, dp or ds supplied for a compound is the value used in the run; zero or absent means the correlation value.", "quantifier": "all compounds, values, waters", "why_tests_cant": "all values", "anchors": ["PSDM/psdm/PSDM.py: __init__, run_psdm"]}
{"id": "C58", "title": "Blending weights form a partition of the beds", "statement": "For any number of beds and any beds-per-cycle between 1 and that number the weights are nonnegative, sum to 1, and there is one weight per age group used in the blend.", "quantifier": "all total_beds >= beds_per_cycle >= 1", "why_tests_cant": "all naturals", "anchors": ["PSDM/psdm/PSDM_tools.py: predict_full_scale"]}
{"id": "C59", "title": "The recommended bed-rotation interval meets the target", "statement": "The returned interval's blended effluent does not exceed the target concentration on any day of the cycle, and the next longer interval (if examined) would exceed it.", "quantifier": "all effluent curves, targets, bed counts", "why_tests_cant": "all curves", "anchors": ["PSDM/psdm/PSDM_tools.py: predict_full_scale"]}
{"id": "C60", "title": "Replacement interval is the last compliant day", "statement": "If a compound's daily effluent exceeds its limit on some day, the predicted interval d is such that no day 0..d exceeds the limit and day d+1 does.", "quantifier": "all effluent series and limits", "why_tests_cant": "all series", "anchors": ["PSDM/psdm/PSDM_tools.py: calculate_replacement_interval"]}
{"id": "C61", "title": "Uncertainty brackets the replacement interval", "statement": "When the lower effluent curve is below the base and the upper above, the reported lower interval <= predicted <= upper interval.", "quantifier": "all ordered triples of curves", "why_tests_cant": "all curves", "anchors": ["PSDM/psdm/PSDM_tools.py: calculate_replacement_interval"]}
{"id": "C62", "title": "Hazard index sums all four contributions", "statement": "The hazard index compared with 1 is PFHxS/10 + PFNA/10 + GenX/10 + PFBS/2000 on every day, and a dataset lacking PFBS is still processed.", "quantifier": "all datasets", "why_tests_cant": "all datasets", "anchors": ["PSDM/psdm/PSDM_tools.py: calculate_replacement_interval"]}
{"id": "C63", "title": "Throughput study runs at the requested contact time", "statement": "Each simulated bed in specific_throughput has the requested empty-bed contact time, with carbon mass proportional to bed volume.", "quantifier": "all original geometries and requested contact times", "why_tests_cant": "real-valued", "anchors": ["PSDM/psdm/PSDM_tools.py: specific_throughput"]}
{"id": "C64", "title": "Small-column design obeys the scaling laws", "statement": "EBCT and duration both scale with (d_small/d_large)^(2-x), so the number of bed volumes treated is the same; loading*particle diameter is preserved; flow*EBCT = column volume; length = loading*EBCT; required volume = flow*duration.", "quantifier": "all large columns, diameters, powers x", "why_tests_cant": "real-valued", "anchors": ["PSDM/psdm/PSDM_extra.py: calc_RSSCT_specs"]}
{"id": "C65", "title": "Particle diameter may be given with units", "statement": "calc_RSSCT_specs with particle_diameter=[value, unit] designs the same column as with the equivalent number in mm.", "quantifier": "all values and units", "why_tests_cant": "all values", "anchors": ["PSDM/psdm/PSDM_extra.py: calc_RSSCT_specs, _length_convert2cm"]}
{"id": "C66", "title": "Large-column loading rate and flow rate are equivalent inputs", "statement": "Building the large column from a loading rate and diameter gives the same EBCT and loading rate as building it from the corresponding flow rate.", "quantifier": "all lengths, diameters, rates", "why_tests_cant": "real-valued", "anchors": ["PSDM/psdm/PSDM_extra.py: build_large_scale_column"]}
{"id": "C67", "title": "Mesh diameters", "statement": "For any two known mesh numbers the mean diameter lies between the two sieve openings and does not depend on the order; a range without exactly one x raises; sieve openings strictly decrease with mesh number.", "quantifier": "all pairs in the table", "why_tests_cant": "full table", "anchors": ["PSDM/psdm/PSDM_extra.py: calc_mesh_diameter"]}
{"id": "C68", "title": "Equilibrium column model solves ideal adsorbed solution theory", "statement": "For positive loadings the liquid concentrations computed from loadings satisfy the IAST equations (each component at its pure-component concentration for the common spreading pressure, weighted by its adsorbed mole fraction), and for one component reduce to Freundlich.", "quantifier": "all component counts, loadings, exponents", "why_tests_cant": "real-valued", "anchors": ["PSDM/psdm/ecm.py: _fcn2, _fcn2_e"]}
{"id": "C69", "title": "Wave velocities satisfy the overall mass balance", "statement": "For each component the wave velocities computed satisfy vf*C_in = sum over zones of (rho q + eps c) * (v_k - v_(k-1)); the first wave velocity is positive and less than vf/eps.", "quantifier": "all component counts and zone states", "why_tests_cant": "real-valued, any number of components", "anchors": ["PSDM/psdm/ecm.py: run_ecm"]}
{"id": "C70", "title": "Every advertised lead-lag configuration runs", "statement": "gac, ix, gac-ix and ix-gac (and their iex spellings, any letter case) dispatch to the matching runner; anything else returns an empty result and runs nothing.", "quantifier": "all strings", "why_tests_cant": "all strings", "anchors": ["PSDM/psdm/lead_lag_class.py: run_LL"]}
{"id": "C71", "title": "A shared flow rate given as a number or [value, unit] is applied", "statement": "Passing shared_flowrate as a float (ml/min) or as [value, unit] sets the resin flow rate to it.", "quantifier": "all values", "why_tests_cant": "all values and types", "anchors": ["PSDM/psdm/lead_lag_class.py: run_LL_gac_ix, run_LL_ix_gac"]}
{"id": "C72", "title": "Lead-lag run covers two swap intervals", "statement": "For every swap interval the simulated window includes the time 2*swap_days at which results are read.", "quantifier": "all positive integer swap intervals", "why_tests_cant": "all naturals", "anchors": ["PSDM/psdm/lead_lag_class.py: run_LL_ix, run_LL_gac"]}
{"id": "C73", "title": "Selectivity adjustment applies to every compound in range", "statement": "A compound at or above the lower threshold gets the early factor if below the upper threshold and the late factor at or above it.", "quantifier": "all selectivities and thresholds", "why_tests_cant": "boundary values", "anchors": ["PSDM/psdm/lead_lag_class.py: add_resin_selectivity"]}
{"id": "C74", "title": "PAC contactor conserves mass", "statement": "In the PAC model the amount dissolved plus the amount on carbon (E*C + 3(1-E)*sum(W Y)) has zero time derivative for every state and compound.", "quantifier": "all states, doses, parameters", "why_tests_cant": "all states", "anchors": ["Shiny-PAC/PAC.py: run_PAC_PSDM diffun"]}
{"id": "C75", "title": "Dose studies leave the PAC model as it was", "statement": "After run_multi_dosage or HRT_calculator_for_dosage, a subsequent run gives the same result as before the study.", "quantifier": "all dose lists, states", "why_tests_cant": "all dose lists", "anchors": ["Shiny-PAC/PAC.py: run_multi_dosage, HRT_calculator_for_dosage, _update_values, run_PAC_PSDM"]}
{"id": "C76", "title": "PAC removal depends on the influent concentration through the isotherm", "statement": "At equilibrium the carbon loading in ug/g equals K times the dissolved concentration in ug/L to the power 1/n.", "quantifier": "all influent concentrations and exponents", "why_tests_cant": "real-valued", "anchors": ["Shiny-PAC/PAC.py: run_PAC_PSDM"]}
{"id": "C77", "title": "Film-only analytical solution is the solution of its rate equation", "statement": "The film-transfer analytical curve starts at C0, satisfies dC/dt = b - aC at all times, is monotone and tends to b/a.", "quantifier": "all parameters and times", "why_tests_cant": "all reals", "anchors": ["Shiny-PAC/PAC.py: get_analytical_sol"]}
{"id": "C78", "title": "Helfferich film uptake is a fraction", "statement": "The fractional uptake starts at 0, is strictly increasing, stays in [0,1) and tends to 1.", "quantifier": "all parameters and times", "why_tests_cant": "all reals", "anchors": ["Shiny-PAC/PAC.py: helfferich_film"]}
{"id": "C79", "title": "Contact time found for a target concentration is right", "statement": "When the simulated effluent decreases with time and reaches the target, the reported contact time is the time at which the piecewise-linear effluent curve equals the target; a target above the initial value reports the first time; if never reached nothing is reported.", "quantifier": "all decreasing curves, targets", "why_tests_cant": "all curves", "anchors": ["Shiny-PAC/PAC.py: HRT_calculator_for_dosage, _R_HRT_calculator_for_dosage"]}
{"id": "C80", "title": "Contactor volume is consistent with geometry", "statement": "Volume, height and plan area satisfy volume = height*area for square, rectangular and circular formats, including when one dimension is derived from a stated volume.", "quantifier": "all formats and dimensions", "why_tests_cant": "real-valued, all combinations of given inputs", "anchors": ["Shiny-PAC/PAC.py: PAC_CFPSDM.__init__"]}
{"id": "C81", "title": "Roots of the finite-bath series are found one per branch", "statement": "For positive A and each n in the documented range the bracket used contains a root of the characteristic equation, and successive roots are strictly increasing.", "quantifier": "all A > 0, all n up to 100000 (the code asks for 500)", "why_tests_cant": "all reals A", "anchors": ["Shiny-PAC/PAC.py: find_qn"]}
{"id": "C82", "title": "Dimensionless time scaling cancels", "statement": "The physical rates of change (solver rates divided by the time scale) and the physical output times do not depend on the internal time scale, so results do not depend on the first influent row through it.", "quantifier": "all states, time scales != 0", "why_tests_cant": "all states and scales", "anchors": ["IonExchangeModel/ixpy/hsdmix.py: solve, diffun", "IonExchangeModel/ixpy/psdmix.py: solve, diffun"]}
{"id": "C83", "title": "Error of a fit is the sum of squared deviations and zero only for a perfect match", "statement": "The fit statistic returned for a trial is nonnegative and is zero exactly when simulated and observed agree at all compared points.", "quantifier": "all curves", "why_tests_cant": "all curves", "anchors": ["PSDM/psdm/PSDM.py: run_all_smart get_ssq, run_psdm_kfit"]}
{"id": "C84", "title": "Conversion factors are physically correct", "statement": "Factors between metric (and time) units are exactly the ratio of the unit sizes; factors involving ft, in, gal, lb, oz agree with the legal definitions to within 4 parts in 100000; concentration factors are exactly the ratio of milliequivalents per unit for the ion's molecular weight and valence.", "quantifier": "all tables, all accepted unit pairs, all positive molecular weights and valences", "why_tests_cant": "every pair against an independent definition; a wrong coefficient passes round-trip tests", "anchors": ["IonExchangeModel/ixpy/paramsheets.py: conv_length, conv_volume, conv_time, conv_area, conv_weight, conv_conc and compound converters"]}
{"id": "C85", "title": "Ion-exchange uncertainty analysis works whatever the time base of the influent table", "statement": "For every influent table the analysis runs to completion and returns a band, whether times are in days, hours or minutes.", "quantifier": "all influent tables and time bases", "why_tests_cant": "all tables; shipped examples use hours only", "anchors": ["IonExchangeModel/ixpy/hsdmix.py: model_uncertainty", "IonExchangeModel/ixpy/psdmix.py: model_uncertainty_PSDM"]}
{"id": "C87", "title": "Competitive pore equilibrium satisfies ideal adsorbed solution theory", "statement": "For any number of compounds with positive loadings the pore concentrations used in the GAC column are the IAST concentrations: each is the adsorbed mole fraction times the pure-component Freundlich concentration at the common spreading pressure.", "quantifier": "all numbers of compounds, loadings, K, 1/n, fouling factors", "why_tests_cant": "any number of compounds, real-valued", "anchors": ["PSDM/psdm/PSDM.py: run_psdm diffun"]}
{"id": "C88", "title": "Inside the carbon bead the rate of change is surface plus pore diffusion", "statement": "At interior collocation points the rate of change of loading is the discrete radial Laplacian of the loading weighted by surface diffusion plus that of the pore concentration weighted by pore diffusion, with the coefficients of the water in use.", "quantifier": "all states, compounds, points, times and waters", "why_tests_cant": "all states and times", "anchors": ["PSDM/psdm/PSDM.py: run_psdm diffun"]}
{"id": "C89", "title": "Loaded ion-exchange parameters are in the internal units the equations use", "statement": "After loading, lengths are in cm, times in s, volumes in mL, areas in cm2, capacities in the internal units, whatever units the sheet used: the stored value is the sheet value times the exact size of the sheet unit over the internal unit (to the accuracy of C84), and derived quantities are computed from them.", "quantifier": "all accepted sheets", "why_tests_cant": "every sheet and unit; a wrong target unit cancels in most tests", "anchors": ["IonExchangeModel/ixpy/paramsheets.py: PARAMS_ALL, conv_params_data"]}
{"id": "C90", "title": "Resin bead: film and diffusion laws", "statement": "At interior points the rate of change of bead content is pore diffusion of the pore concentration plus surface diffusion of the rest (surface only in the homogeneous model), the reference ion balancing the others in the column models; in the batch models the water loses each ion at kL times bead area times the distance from equilibrium and the beads gain it.", "quantifier": "all states, ions, points, parameters", "why_tests_cant": "all states", "anchors": ["IonExchangeModel/ixpy/hsdmix.py: diffun", "IonExchangeModel/ixpy/psdmix.py: diffun", "IonExchangeModel/ixpy/hsdmixbatch.py: diffun", "IonExchangeModel/ixpy/psdmixbatch.py: diffun"]}
{"id": "C91", "title": "Resin bead content is split between pore water and resin", "statement": "In the pore diffusion models the pore concentration at each bead point is in equilibrium with the part of the bead content left once the pore water has been taken out.", "quantifier": "all states, porosities in [0,1)", "why_tests_cant": "all states and porosities", "anchors": ["IonExchangeModel/ixpy/psdmix.py: diffun", "IonExchangeModel/ixpy/psdmixbatch.py: diffun"]}
{"id": "C92", "title": "The GAC equations are the physical column equations", "statement": "In physical units the water changes by plug flow with residence time tau and film transfer kf times bead area times the concentration difference, the beads gain what the water loses, and inside a bead the content changes by surface and pore diffusion; the partition number is the ratio of content held by carbon and by water at the reference concentration.", "quantifier": "all columns, compounds, states, times", "why_tests_cant": "all states and parameters; the dimensionless form hides factors", "anchors": ["PSDM/psdm/PSDM.py: run_psdm diffun"]}
{"id": "C93", "title": "The GAC column follows the influent table", "statement": "At every time up to the last row the influent used by the equations is the straight-line interpolation of the influent table, no time in the simulated period is out of range, and every other tabulated input stays between its neighbouring values.", "quantifier": "all tables, times, time units", "why_tests_cant": "all tables and times", "anchors": ["PSDM/psdm/PSDM.py: run_psdm", "PSDM/psdm/PSDM_functions.py: interp"]}
{"id": "C94", "title": "Specific throughput is the water treated per mass of carbon", "statement": "Each value specific_throughput reports for a compound and contact time is the volume (m3) treated up to its breakthrough day divided by the mass of carbon (kg) of the bed sized for that contact time from the original specification, whatever was simulated before it; and the column specification handed in is left unchanged.", "quantifier": "all columns, contact-time lists, compound lists, breakthrough functions", "why_tests_cant": "all lists and columns; bed state carries over between iterations", "anchors": ["PSDM/psdm/PSDM_tools.py: specific_throughput"]}
{"id": "C95", "title": "Inputs with units mean what the unit means", "statement": "A length, flow rate, mass, time, loading rate or bulk density given as [value, unit], in any letter case, is converted exactly by the legal size of the unit (density to 1e-9), and any other unit gives NaN.", "quantifier": "all values and unit strings", "why_tests_cant": "every unit spelling against an independent definition", "anchors": ["PSDM/psdm/PSDM_extra.py: _length_convert2cm, _flrt_convert2cm3min, _mass_convert2g, _time_convert2day, build_large_scale_column"]}
{"id": "C96", "title": "Particle diameter of the large column may be given with units", "statement": "build_large_scale_column with particle_diameter=[value, unit] builds the same column as with the number of millimetres.", "quantifier": "all values and units", "why_tests_cant": "all values", "anchors": ["PSDM/psdm/PSDM_extra.py: build_large_scale_column"]}
{"id": "C97", "title": "Equilibrium column breakthrough curve is the staircase of zones", "statement": "After run_ecm, with fronts of increasing speed, the function plot_ecm stores for a component is 0 up to the fastest front's day, the component's concentration in zone k+1 (mass units) after front k+1's day up to front k's day, and its influent concentration after the slowest front's day.", "quantifier": "all component counts, fronts and times", "why_tests_cant": "all times and component counts", "anchors": ["PSDM/psdm/ecm.py: plot_ecm, run_ecm"]}
{"id": "C98", "title": "Equilibrium column fronts satisfy the flux condition", "statement": "If the root finder returns roots, then across each front every remaining component satisfies vf*dc = v*(rho*dq + eps*dc), front i moves at vf*c_ii/(rho*q_ii + eps*c_ii), every front speed lies strictly between 0 and vf/eps, and a component's loading and concentration rise or fall together across a front.", "quantifier": "all component counts, isotherms and beds", "why_tests_cant": "real-valued, any number of fronts", "anchors": ["PSDM/psdm/ecm.py: run_ecm, fcn_extra"]}
{"id": "C99", "title": "Equilibrium column outputs have their stated units", "statement": "days_to_breakthrough is the time a front at vw cm/s needs for the bed length in metres (2.765 m if none is given), bvf is the water applied by then over the bed volume, usage_rate times the bed density is bvf, sstc is the carbon dose (mg/L) that holds the influent at single-solute equilibrium, and vf converts gallons per minute per square foot to cm/s.", "quantifier": "all inputs", "why_tests_cant": "real-valued", "anchors": ["PSDM/psdm/ecm.py: run_ecm, _process_input_file"]}
{"id": "C100", "title": "A zero fit error means a fit", "statement": "fit_ecm's objective is zero exactly when every breakthrough day and every peak ratio agrees with the data.", "quantifier": "all data and model outputs", "why_tests_cant": "real-valued", "anchors": ["PSDM/psdm/ecm.py: fit_ecm"]}
{"id": "C101", "title": "After a fit the equilibrium column holds the best parameters", "statement": "After fit_ecm or fit_ecm2 the K and 1/n stored in the object are those of the trial with the least objective.", "quantifier": "all sequences of trials", "why_tests_cant": "any optimiser path", "anchors": ["PSDM/psdm/ecm.py: fit_ecm, fit_ecm2"]}
{"id": "C102", "title": "Lead and lag vessels of a mixed system share one flow", "statement": "With shared_flowrate='use ix' the carbon vessel gets the resin's flow in mL/min whatever accepted flow unit the resin parameters use; with 'use gac' the resin gets the carbon's flow.", "quantifier": "all flows and units", "why_tests_cant": "all values and units", "anchors": ["PSDM/psdm/lead_lag_class.py: run_LL_gac_ix, run_LL_ix_gac, flow_converter"]}
{"id": "C103", "title": "Lead-lag passes simulate the chain of vessels", "statement": "For any vessel model the curves run_LL_gac and run_LL_ix report are those of vessel number loops+1 in the sequence in which each vessel is first fed with the effluent of the previous one and, from the swap on, with raw water: its first interval is the effluent curve, its second the mid curve. At the steady state the effluent curve is the response to the mid curve.", "quantifier": "all vessel models, swap intervals of ten days or more, numbers of passes", "why_tests_cant": "all vessel models and numbers of passes", "anchors": ["PSDM/psdm/lead_lag_class.py: run_LL_gac, run_LL_ix"]}
{"id": "C104", "title": "The lag vessel of a mixed system is fed with the lead vessel's effluent", "statement": "In run_LL_gac_ix every compound considered enters the resin vessel at the concentration leaving the carbon vessel, with traces in place of zeros; in run_LL_ix_gac likewise.", "quantifier": "all compounds and effluents", "why_tests_cant": "all lists of compounds", "anchors": ["PSDM/psdm/lead_lag_class.py: run_LL_gac_ix, run_LL_ix_gac"]}
{"id": "C105", "title": "A resin-resin run leaves the influent data as they were", "statement": "A resin-carbon run starts from the same influent whether or not a resin-resin run was made before on the same object.", "quantifier": "all vessel models and intervals", "why_tests_cant": "all histories", "anchors": ["PSDM/psdm/lead_lag_class.py: run_LL_ix, run_LL_ix_gac"]}
{"id": "C106", "title": "Adding a resin selectivity keeps the ion table consistent", "statement": "add_resin_selectivity leaves each name once, the list of available names equal to that of the table, the compound present with its adjusted selectivity, every other row unchanged, and doing it twice is doing it once.", "quantifier": "all tables and compounds", "why_tests_cant": "all tables", "anchors": ["PSDM/psdm/lead_lag_class.py: add_resin_selectivity"]}
{"id": "C107", "title": "The PAC contactor counts the inputs it is missing", "statement": "Building the contactor from tables with known units never raises, and its error count is the number of required rows that are absent (density, porosity, radius, length, height, flow, two retention times, dose).", "quantifier": "all input tables", "why_tests_cant": "all combinations of absent rows", "anchors": ["Shiny-PAC/PAC.py: PAC_CFPSDM.__init__"]}
{"id": "C108", "title": "PAC unit tables are exact", "statement": "Every time, length, volume, flow and concentration unit of the PAC tables converts by its exact definition (s, cm, mL, mL/s, ug/L); unlisted time and length units raise KeyError.", "quantifier": "all units of the tables and all other text", "why_tests_cant": "all strings", "anchors": ["Shiny-PAC/PAC.py: time_conv, length_conv, volume_conv, flow_conv, conc_conv"]}
{"id": "C109", "title": "The result for each dose of a study depends only on that dose", "statement": "run_multi_dosage gives for every dose the run of the model built with that dose for 1000 minutes, whatever the other doses and their order; multi_dosage_analyzer reports one row per dose, on the straight line between the two simulated times around the contact time, in ug/L.", "quantifier": "all models, solvers, lists of doses and contact times", "why_tests_cant": "all lists, any solver", "anchors": ["Shiny-PAC/PAC.py: run_multi_dosage, multi_dosage_analyzer"]}
{"id": "C110", "title": "The carbon in the modelled contactor is the stated dose", "statement": "The volume fraction of carbon times its density is the dose in mg per litre of contactor.", "quantifier": "all doses and densities", "why_tests_cant": "real-valued", "anchors": ["Shiny-PAC/PAC.py: _update_values, __init__"]}
{"id": "C111", "title": "A concentration unit accepted for the compounds is accepted for the target", "statement": "HRT_calculator_for_dosage accepts as target unit every unit accepted in the compounds table, and returns a result.", "quantifier": "all models, targets, units", "why_tests_cant": "all models and units", "anchors": ["Shiny-PAC/PAC.py: HRT_calculator_for_dosage, _R_HRT_calculator_for_dosage"]}
{"id": "C112", "title": "Diffusion-only series solution is a fraction", "statement": "The finite-bath uptake is below 1, strictly increasing in time and tends to 1 for any number of roots, and the reported curve falls strictly to the equilibrium split between water and carbon.", "quantifier": "all parameters, all lists of positive roots", "why_tests_cant": "all reals", "anchors": ["Shiny-PAC/PAC.py: finiteSphere, get_analytical_sol2"]}
{"id": "C113", "title": "An equilibrated PAC contactor is stationary", "statement": "If carbon is uniformly loaded in equilibrium with the water every rate is zero; with clean carbon the water loses each compound at -(1-E)/E*3*kf/r times its relative concentration.", "quantifier": "all loads, parameters, collocation orders", "why_tests_cant": "all states", "anchors": ["Shiny-PAC/PAC.py: run_PAC_PSDM diffun"]}
{"id": "C114", "title": "Derived capacity rows of the PAC model agree", "statement": "qe is the isotherm at the influent in ug/L, Ye adds the pore water, Dg is the amount on carbon over the amount dissolved at saturation with the influent, X is Ds*HRT/r^2.", "quantifier": "all parameters", "why_tests_cant": "real-valued", "anchors": ["Shiny-PAC/PAC.py: _update_values"]}
{"id": "C115", "title": "Helfferich curve solves the film-transfer batch balance", "statement": "The film-only curve of get_analytical_sol2 starts at 1, satisfies the batch balance with film transfer to a carbon of linear isotherm, and falls strictly to the equilibrium split.", "quantifier": "all parameters and times", "why_tests_cant": "all reals", "anchors": ["Shiny-PAC/PAC.py: helfferich_film, get_analytical_sol2"]}
{"id": "C117", "title": "The column sheet of a PSDM workbook means what it says", "statement": "process_input_file stores length, diameter, radius (cm), densities (g/mL), flow (mL/min) and mass (g) as the exact quantities written in the sheet, units in any letter case, and refuses a sheet with a unit it does not know.", "quantifier": "all values and unit strings", "why_tests_cant": "all strings and reals", "anchors": ["PSDM/psdm/PSDM_functions.py: process_input_file"]}
{"id": "C118", "title": "Concentration and time units of a PSDM workbook have their size", "statement": "The multipliers process_input_file stores are the size in ug of the concentration unit (ug, ng, mg and their per-litre and ppb, ppt, ppm forms) and the size in minutes of the time unit (days, day, hour, hours, hr, hrs, min; days if there is none).", "quantifier": "all sheets", "why_tests_cant": "all strings", "anchors": ["PSDM/psdm/PSDM_functions.py: process_input_file"]}
{"id": "C119", "title": "The measurement table keeps what was measured and has no gaps", "statement": "In the table process_input_file returns, times are those of the sheet and zero in order, each measurement at or above the reporting limit is kept, every compound has a value at every time from zero on, interpolated between neighbouring samples, and no value is negative.", "quantifier": "all sheets with two complete samples per stream, all reporting limits", "why_tests_cant": "all sheets, any number of compounds and samples", "anchors": ["PSDM/psdm/PSDM_functions.py: process_input_file"]}
{"id": "C86", "title": "Every film-transfer correlation gives a coefficient that grows with the flow", "statement": "For each correlation name kf_calc knows, and a Schmidt number of one or more, it returns a positive number, strictly increasing in the Reynolds number; any other name gives Gnielinski's.", "quantifier": "all Reynolds and Schmidt numbers, porosities, names", "why_tests_cant": "all reals and strings", "anchors": ["PSDM/psdm/PSDM_functions.py: kf_calc, ohashi, gnielinski"]}
{"id": "C120", "title": "Water properties behave", "statement": "viscosity is positive and strictly falling at all temperatures above absolute zero; density has one maximum, between 3.5 and 3.7 C, rises strictly below and falls strictly above it, and lies between 0.958 and 1.0001 from 0 to 100 C.", "quantifier": "all temperatures", "why_tests_cant": "all reals", "anchors": ["PSDM/psdm/PSDM_functions.py: viscosity, density", "IonExchangeModel/ixpy/KL_guess.py: viscosity, density"]}
{"id": "C121", "title": "The carbon and resin packages estimate the same film coefficient", "statement": "Hayduk_Laudie equals the diffusivity of run_psdm, and simple_Gnielinski the film coefficient of run_psdm, for the same water, bed and compound; the estimate exceeds DL/rb, grows with the flow, and warnings are printed exactly outside the stated ranges.", "quantifier": "all inputs", "why_tests_cant": "all reals", "anchors": ["PSDM/psdm/PSDM_functions.py: kf_calc", "PSDM/psdm/PSDM.py: run_psdm, __init__", "IonExchangeModel/ixpy/KL_guess.py: Hayduk_Laudie, simple_Gnielinski"]}
{"id": "C122", "title": "Diffusivity correlations behave", "statement": "Hayduk_Laudie and Wilke_Chang are positive, fall strictly with the molar volume and grow strictly with temperature above absolute zero; Wilke_Chang times viscosity over absolute temperature does not depend on temperature.", "quantifier": "all molar volumes and temperatures", "why_tests_cant": "all reals", "anchors": ["IonExchangeModel/ixpy/KL_guess.py: Hayduk_Laudie, Wilke_Chang"]}
{"id": "C116", "title": "Inside a PAC particle the load moves by pore and surface diffusion", "statement": "At inner radial points diffun's load rate is porosity*Dp times the spherical Laplacian of the pore concentration plus Ds times that of the adsorbed part, over the radius squared, for the profiles through the nodal values; the surface point makes the particle's uptake equal the film flux; the pore concentration is the Freundlich inverse of the load; results are reported in minutes and in the influent's units (ug/L from R_run_PAC).", "quantifier": "all states, parameters and collocation orders", "why_tests_cant": "all states", "anchors": ["Shiny-PAC/PAC.py: run_PAC_PSDM diffun, R_run_PAC"]}
{"id": "C123", "title": "The capacity estimated from measured data balances the mass and lies on a Freundlich curve", "statement": "The q that __calculate_capacity returns times the carbon mass is the flow times the area between the influent and effluent series up to the breakthrough time (1e-6 per gram at least, if breakthrough was found); aveC is the mean of the influent over whole days to breakthrough and positive; K*(aveC)^xn = q, K and q positive, and k_function gives the K of the same q for each tabulated 1/n.", "quantifier": "all data tables in order of time, starting at zero, all fits", "why_tests_cant": "all reals, any number of rows", "anchors": ["PSDM/psdm/PSDM.py: __calculate_capacity"]}
{"id": "C124", "title": "The breakthrough time is the day the effluent reaches the influent", "statement": "If the interpolated effluent reaches the interpolated influent on a whole day within the data, with two or more nonzero effluent samples, the breakthrough time returned is within a day of the first such day.", "quantifier": "all data tables", "why_tests_cant": "all reals, any number of rows", "anchors": ["PSDM/psdm/PSDM.py: __calculate_capacity"]}
{"id": "C125", "title": "The breakthrough time is positive and at most 2000 days", "statement": "Whatever curve_fit and linregress return, the breakthrough time __calculate_capacity returns is positive and not over 2000.", "quantifier": "all data tables, all fits", "why_tests_cant": "all reals", "anchors": ["PSDM/psdm/PSDM.py: __calculate_capacity"]}
{"id": "C126", "title": "The fitted logistic curve is read at 99 % and 90 %", "statement": "The time taken from a fitted logistic is a whole day within half a day of the only time at which the curve is at 99 % of its plateau, used when past a quarter of the data and replaced by the end of the data past day 2000; the artificial point is where the curve is at 90 %.", "quantifier": "all fitted parameters with nonzero slope", "why_tests_cant": "all reals", "anchors": ["PSDM/psdm/PSDM.py: __calculate_capacity", "PSDM/psdm/PSDM_functions.py: logistic"]}
{"id": "C127", "title": "Estimating the capacity leaves the measured data as they were", "statement": "Constructing a PSDM does not change the data table handed to it.", "quantifier": "all tables, fits and options", "why_tests_cant": "all tables", "anchors": ["PSDM/psdm/PSDM.py: __calculate_capacity, __init__"]}
{"id": "C128", "title": "The average fouling correction stays in range", "statement": "foul_mult_est is the inverse of the mean of the fouling curve over the days to breakthrough: between the inverses of any bounds of the curve, from 1 to 1000 for classes starting at full capacity with breakthrough within the simulated days, and never smaller for a later breakthrough.", "quantifier": "all waters, classes, times", "why_tests_cant": "all reals, all numbers of days", "anchors": ["PSDM/psdm/PSDM.py: __calculate_capacity, __fouled_k_new"]}
{"id": "C129", "title": "Fitting the surface diffusion coefficient returns the best of thirty and restores the column", "statement": "run_psdm_dsfit on a column with data for the compound returns the surface diffusion coefficient whose simulated effluent has the least sum of squared daily differences of the thirty tried, from 1e-10 to 1 times ds_base, with its curve and the errors of all thirty, and leaves the column as it was stored.", "quantifier": "all columns, data, simulations", "why_tests_cant": "all columns and curves", "anchors": ["PSDM/psdm/PSDM.py: run_psdm_dsfit"]}
{"id": "C130", "title": "The surface diffusion fit starts from the correlation the simulation uses", "statement": "The ds_base of run_psdm_dsfit is the surface diffusion coefficient run_psdm takes by correlation for the same column and compound.", "quantifier": "all columns and compounds", "why_tests_cant": "all reals", "anchors": ["PSDM/psdm/PSDM.py: run_psdm_dsfit, run_psdm"]}
{"id": "C131", "title": "predict_full_scale_ds predicts with the stored coefficients", "statement": "For every compound asked for, predict_full_scale_ds simulates the effluent with the coefficient in row ds of k_data, the bed rotation it returns is that of predict_full_scale for those curves, and the column is as before.", "quantifier": "all columns, stored coefficients, bed numbers, targets", "why_tests_cant": "all columns, any number of compounds and days", "anchors": ["PSDM/psdm/PSDM_tools.py: predict_full_scale_ds", "PSDM/psdm/PSDM.py: run_psdm_dsfit"]}
{"id": "C132", "title": "find_minimum_df finds the smallest entry", "statement": "For a table of positive errors find_minimum_df returns row and column of the smallest entry and its value.", "quantifier": "all tables", "why_tests_cant": "all sizes and reals", "anchors": ["PSDM/psdm/PSDM_functions.py: find_minimum_df"]}
{"id": "C133", "title": "isotherm_fit fits the loadings of the bottles", "statement": "Given that curve_fit minimizes the squared error over nonnegative parameters, isotherm_fit returns, for each of its three isotherms, the parameters of least squares for the points (Ce, (C0-Ce)/mass) of the complete rows.", "quantifier": "all tables, all isotherm names", "why_tests_cant": "all reals, any number of rows", "anchors": ["PSDM/psdm/PSDM_tools.py: isotherm_fit"]}
{"id": "C134", "title": "The isotherm equations behave", "statement": "Langmuir starts at zero, increases strictly, stays below and tends to qm, and is half of it at 1/KL; Freundlich is a line in logarithms and increases; Redlich-Peterson is Langmuir for M=1 and Freundlich for B=0, and increases for M up to 1.", "quantifier": "all parameters and concentrations", "why_tests_cant": "all reals", "anchors": ["PSDM/psdm/PSDM_tools.py: isotherm_fit"]}
{"id": "C135", "title": "The bands drawn around the fitted isotherm are consistent", "statement": "The prediction band contains the confidence band, both are narrowest at the mean concentration and symmetric about it, there the confidence half width is Student's quantile times the standard error of the mean, and an exact fit has bands of no width.", "quantifier": "all data and curves", "why_tests_cant": "all reals, any number of points", "anchors": ["PSDM/psdm/PSDM_tools.py: isotherm_fit"]}
{"id": "C136", "title": "A restarted ion-exchange run continues the stored one", "statement": "Take any run of HSDMIX.solve or PSDMIX.solve over a time-dependent influent and any physical time s within it. The run started from the state stored at s (u_init), with the influent from s on and the time scale computed from it, visits the same states at the same physical times as the first run, apart from the inlet entries of the liquid, which the rates never read. The influent from s on is what the code interpolates from the tail of the influent sheet when s is one of its times and the times are counted from s.", "quantifier": "all ion counts, grid sizes, parameters, influents, stop times and time scales", "why_tests_cant": "A test restarts one run at one time and compares with a tolerance.", "anchors": ["IonExchangeModel/ixpy/hsdmix.py:376-415", "IonExchangeModel/ixpy/hsdmix.py:467-560", "IonExchangeModel/ixpy/psdmix.py:173-213", "IonExchangeModel/ixpy/psdmix.py:263-389"]}
{"id": "C137", "title": "The web application computes the same ion-exchange rates as the Python package", "statement": "For every number of ions, grid, parameter set, influent and state, the derivative function of the R application (HSDMIX_solve, PSDMIX_solve) returns, at every point beyond the inlet, the rates hsdmix and psdmix return for the same state.", "quantifier": "all ion counts, grids, parameters, influents and states, both models", "why_tests_cant": "The two programs have no test that compares them, and for ions with equal diffusion coefficients they agree.", "anchors": ["Shiny-IEX/Ion_Exchange_Model.R:380-466", "Shiny-IEX/Ion_Exchange_Model.R:574-680", "IonExchangeModel/ixpy/hsdmix.py: solve", "IonExchangeModel/ixpy/psdmix.py: solve"]}
{"id": "C138", "title": "The charge check of the web application passes for every run and looks at nothing else", "statement": "Every state a consistent integration scheme reaches in the R application holds the capacity Q at every bead point, so the charge balance check after the run passes and the results are returned unchanged; a result whose surface at the outlet does not total Q is replaced by zeros.", "quantifier": "all ion counts, grids, parameters, influents, tolerances and integration schemes", "why_tests_cant": "A run shows one final state; that the check can never fail, whatever the rates, is a statement about all runs.", "anchors": ["Shiny-IEX/Ion_Exchange_Model.R:366-370", "Shiny-IEX/Ion_Exchange_Model.R:469-485", "Shiny-IEX/Ion_Exchange_Model.R:683-699"]}
{"id": "C139", "title": "The ion-exchange web application converts units rightly", "statement": "Every unit on the menus of the ion-exchange application is converted to cm, cm/s, mL/s, cm2/s and s with its size by definition (velocities to 1e-11). So the velocity given to the solver is the one entered or the flow over the cross section, times of tables mean the same to solver and plots, and the time axis is right in hours, days, months of 30 days, years and bed volumes.", "quantifier": "all numbers entered, all units of the menus, linear velocity or flow", "why_tests_cant": "Forty-odd factors, each used through several formulas; a test picks a few combinations.", "anchors": ["Shiny-IEX/Ion_Exchange_Model.R:36-95", "Shiny-IEX/Ion_Exchange_Model.R:854-867", "Shiny-IEX/Ion_Exchange_Model.R:953-990", "Shiny-IEX/Ion_Exchange_Model.R:2102-2160", "Shiny-IEX/Ion_Exchange_Model.R:2342-2356"]}
{"id": "C140", "title": "The carbon web application passes the column of the form to the model", "statement": "The column_data table holds radius, length and diameter in cm, weight in g, flow in mL/min, the factors to litres, micrograms and minutes, of the column entered, for every combination of units on the menus.", "quantifier": "all numbers entered, all units of the menus, linear velocity or flow", "why_tests_cant": "8 x 8 x 5^3 x 3 x 3 x 3 combinations of units.", "anchors": ["Shiny-GAC/GACapp.R:23-102", "Shiny-GAC/GACapp.R:193-256"]}
{"id": "C141", "title": "The time axis of the carbon web application is right", "statement": "The plotted time is the time of the table in the unit chosen, or the thousands of bed volumes passed, for tables in days and in hours and every unit on the menus.", "quantifier": "all times, units of the table and of the plot, forms", "why_tests_cant": "A test with a table in days, plotted in days, passes.", "anchors": ["Shiny-GAC/GACapp.R:36-40", "Shiny-GAC/GACapp.R:364-374", "Shiny-GAC/GACapp.R:1233-1243"]}
{"id": "C142", "title": "The carbon web application converts concentrations rightly", "statement": "A concentration in the units of the table is shown as the same concentration in the unit chosen for the plot.", "quantifier": "all concentrations, all pairs of units", "why_tests_cant": "Every pair of units is a different factor.", "anchors": ["Shiny-GAC/GACapp.R:86", "Shiny-GAC/GACapp.R:351", "Shiny-GAC/GACapp.R:1254"]}
{"id": "C143", "title": "c/c0 of the carbon web application divides by the influent of the same compound", "statement": "For every compound the relative curve is the computed one divided by the first influent concentration of that compound, in whatever order the tables list them.", "quantifier": "all tables, any number and order of compounds", "why_tests_cant": "Test tables list compounds in the same order.", "anchors": ["Shiny-GAC/GACapp.R:402-416", "Shiny-GAC/GACapp.R:1246-1271"]}
{"id": "C144", "title": "Every ion of the web application is fed with its own influent", "statement": "The influent the solver interpolates for an ion is the column of the influent table with the name of the ion, in milliequivalents per litre by its molecular weight, valence and unit, in whatever order the columns are; names that do not match stop the run.", "quantifier": "all ion lists and influent tables, any number and order", "why_tests_cant": "Test tables list columns in the order of the ions.", "anchors": ["Shiny-IEX/Ion_Exchange_Model.R:322", "Shiny-IEX/Ion_Exchange_Model.R:359-362", "Shiny-IEX/Ion_Exchange_Model.R:874-899", "Shiny-IEX/Ion_Exchange_Model.R:994-1012"]}
{"id": "C145", "title": "Concentrations of the ion-exchange web application convert there and back", "statement": "For the units of the manual, the factors to milliequivalents for the solver, back to mg/L for the plots and for c/c0 agree: converting in and out is the conversion to mg/L, and a relative curve is the computed one over the first influent value it was computed from.", "quantifier": "all molecular weights, valences, units of the manual, tables", "why_tests_cant": "The factors are in four functions, each with its own cases.", "anchors": ["Shiny-IEX/Ion_Exchange_Model.R:874-899", "Shiny-IEX/Ion_Exchange_Model.R:1054-1111", "Shiny-IEX/Ion_Exchange_Model.R:1160-1205", "Shiny-IEX/README.md:127"]}
{"id": "C146", "title": "The bicarbonate calculator solves the carbonate equilibrium", "statement": "For every pH and alkalinity there is a carbonate equilibrium satisfying both dissociations and the alkalinity balance; the calculator returns its bicarbonate in mmol/L, mg C/L and mg HCO3/L, and refuses exactly when alkalinity is below that of water without carbonate at this pH.", "quantifier": "all pH values and alkalinities", "why_tests_cant": "Existence, uniqueness and the limit of refusal concern all waters.", "anchors": ["Shiny-IEX/Ion_Exchange_Model.R:1992-2031"]}
{"id": "C147", "title": "The film coefficient estimate is the correlation for the bed of the form", "statement": "The estimate of the film coefficient is that of the Gnielinski correlation with the Hayduk-Laudie diffusivity for the bead radius, velocity and porosity entered, whatever their units.", "quantifier": "all temperatures, molar volumes, radii, velocities, porosities, units", "why_tests_cant": "With the default units cm and cm/s the result is right.", "anchors": ["Shiny-IEX/Ion_Exchange_Model.R:2044-2074"]}
{"id": "C148", "title": "Counter-ions and other ions are plotted apart", "statement": "The table of computed curves behind the counter-ion plot has exactly the curves of chloride, sulfate, bicarbonate and nitrate, the table behind the other plot exactly the other curves.", "quantifier": "all lists of ions in any order, any number of times", "why_tests_cant": "Depends on the order of the ion list; the example lists counter-ions first.", "anchors": ["Shiny-IEX/Ion_Exchange_Model.R:2311-2326"]}
{"id": "C149", "title": "The carbon web application feeds the influent of the table", "statement": "For every influent table with increasing times, the concentration the equations of the web application use at a time of the table is the straight line between the two samples around it, and the first value before the first sample.", "quantifier": "all tables with increasing times, all times in them, days or hours, all scalings", "why_tests_cant": "A test table has one sample a day.", "anchors": ["Shiny-GAC/GAC_Shiny_helper.py:61-70", "PSDM/psdm/PSDM.py:1374", "PSDM/psdm/PSDM.py:1628-1640"]}
{"id": "C150", "title": "The carbon web application returns the simulated curves", "statement": "Without exception the result has rows at every quarter of a time unit from zero to the last influent time, each value lies on the straight line between two neighbouring points of the simulation of that compound alone, none is extrapolated; a run in which no simulation fails returns a table.", "quantifier": "all curves, durations, compounds, simulations", "why_tests_cant": "Ends of the two grids meet differently for every last influent time.", "anchors": ["Shiny-GAC/GAC_Shiny_helper.py:75", "Shiny-GAC/GAC_Shiny_helper.py:89-100", "PSDM/psdm/PSDM.py:1834", "PSDM/psdm/PSDM.py:1859"]}
{"id": "C151", "title": "Transfer coefficients of the properties sheet are used", "statement": "A number in a row kf, dp or ds of the properties sheet, in any letter case, is the coefficient of that compound in the run; without such a row the coefficient is left to the correlation.", "quantifier": "all compound lists and sheets with distinct row names", "why_tests_cant": "Depends on the text in other cells.", "anchors": ["Shiny-GAC/GAC_Shiny_helper.py:42-51", "Shiny-GAC/GAC_Shiny_helper.py:124-133"]}
{"id": "C152", "title": "Units and transfer coefficients given to the column object are those used", "statement": "The keywords for time, flow and concentration units set the factor by the size of the unit, with days, millilitres and nanograms as default; a factor in the column table comes first; a unit that is not known is refused. Coefficients of the keyword mass_transfer, in any letter case, are those of the run and all others are zero.", "quantifier": "all unit names, factors, tables of coefficients", "why_tests_cant": "Wrong names give numbers, not errors.", "anchors": ["PSDM/psdm/PSDM.py:147-189", "PSDM/psdm/PSDM.py:329-350"]}
{"id": "C153", "title": "What the fit of the web application shows as fitted was fitted", "statement": "The table of isotherms returned by the fit of the web application contains fitted values of the compounds only.", "quantifier": "all outcomes of construction, fit and simulation", "why_tests_cant": "Needs a failing fit.", "anchors": ["Shiny-GAC/GAC_Shiny_helper.py:151-184"]}
{"id": "C154", "title": "Collocation matrices of the web application are those of the package", "statement": "The radial operator, the radial weights and the axial operator built by the web application are exact: the first gives f'' + 2/r f' at the nodes for even polynomials of degree below 2(m+1), the second integrates r^2 f for even polynomials of degree up to 4m, the third differentiates polynomials up to degree m+1; they equal those of the package; no entry is NA although the loop uses its vectors again.", "quantifier": "all numbers of points of at least two, all distinct nodes", "why_tests_cant": "Wrong products left in a vector of an earlier root matter only for some numbers of points.", "anchors": ["Shiny-IEX/Ion_Exchange_Model.R:114-230", "Shiny-IEX/Ion_Exchange_Model.R:232-296"]}
{"id": "C155", "title": "An ion-exchange column holds what was fed and did not leave", "statement": "For every ion, the content of the whole column (water in the voids and mean bead loading, averaged over the bed with positive weights that integrate polynomials exactly) changes at the rate velocity over length times influent minus effluent. Along every exact solution the change between two times is the integral of that; every step of a time stepping scheme keeps the balance; no more leaves than was there or fed.", "quantifier": "all states, influents in time, isotherm and transfer parameters, both models, any number of axial points and elements", "why_tests_cant": "The weights and the balance are not part of the output; a leak of the discretisation looks like a slightly earlier breakthrough.", "anchors": ["IonExchangeModel/ixpy/hsdmix.py:467-530", "IonExchangeModel/ixpy/psdmix.py:263-346", "IonExchangeModel/ixpy/colloc.py:82", "IonExchangeModel/ixpy/colloc.py:214-245"]}
{"id": "C156", "title": "A carbon column holds what was fed and did not leave", "statement": "For every compound the content of the column (water and carbon) changes by one bed volume of water per contact time times influent minus effluent, along every exact solution between any two times and in every step of a time stepping scheme, with any fouling, tortuosity, competition and influent in time.", "quantifier": "all states, compounds, influents, fouling and tortuosity in time, any number of axial points and elements", "why_tests_cant": "Fouling and competition hide a leak.", "anchors": ["PSDM/psdm/PSDM.py:1533-1615", "PSDM/psdm/PSDM_functions.py:569-573", "PSDM/psdm/PSDM_functions.py:591-639", "PSDM/psdm/PSDM_functions.py:653-664"]}
{"id": "C157", "title": "An ion that is not exchanged passes the column with the water", "statement": "An ion with film coefficient zero whose influent is a polynomial of time that the axial points can resolve is found at distance x from the inlet as it was fed x times porosity times length over velocity earlier, whatever the other ions do.", "quantifier": "all polynomials up to the number of points of an element minus one, all states of other ions, both models", "why_tests_cant": "A tracer is not an ion exchange test case.", "anchors": ["IonExchangeModel/ixpy/hsdmix.py:467-530", "IonExchangeModel/ixpy/psdmix.py:263-346"]}
{"id": "C158", "title": "The root search of the film diffusion series finds the modes", "statement": "find_pn returns the first n+1 positive zeros of the characteristic equation of the batch with film and surface diffusion, in order, none missed and none twice.", "quantifier": "all equilibrium shares between 0 and 1, all Biot numbers, all numbers of roots", "why_tests_cant": "A missed first root only shows as an uptake that starts well above zero.", "anchors": ["Shiny-PAC/PAC.py:657-689"]}
{"id": "C159", "title": "The film diffusion series is the uptake of a batch", "statement": "finiteHSDM with distinct modes is a fraction between 0 and 1, increases strictly, tends to 1, and is a solution of the batch: a loading of the particle exists with which it obeys diffusion, film and balance of the water. A mode left out is missing from the start by its weight. The curves of get_analytical_sol2 fall from at most 1 to the equilibrium share.", "quantifier": "all film coefficients, diffusivities, radii, doses, partition coefficients, any distinct modes, all times", "why_tests_cant": "Only a few parameter sets have reference curves.", "anchors": ["Shiny-PAC/PAC.py:734-756", "Shiny-PAC/PAC.py:792-807"]}
{"id": "C160", "title": "C/C0 of the powdered carbon application refers to the own influent", "statement": "The column C/C0 is the concentration over the influent concentration of the same compound.", "quantifier": "all numbers of compounds, all units, all runs", "why_tests_cant": "The shipped example has two compounds, the only number for which it is right.", "anchors": ["Shiny-PAC/PACapp.R:686-703"]}
{"id": "C161", "title": "Output of the powdered carbon application in chosen units", "statement": "In every unit offered the curve of a compound has exactly the simulated times and concentrations, in order, in that unit; none is lost and none is from another compound; C/C0 shows the precalculated column.", "quantifier": "all offered units, all tables, all numbers of compounds", "why_tests_cant": "Needs all units and a table in long form.", "anchors": ["Shiny-PAC/PACapp.R:772-795", "Shiny-PAC/PACapp.R:686-703", "Shiny-PAC/PACapp.R:452-453"]}
{"id": "C162", "title": "The form of the powdered carbon application is the model that runs", "statement": "With the choices offered the model is built without error from the numbers of the form, the volume being that of the selected input; the run is the one of those numbers, and does not depend on length, height, volume, flow or the selection.", "quantifier": "all numbers, all offered units, all compounds", "why_tests_cant": "The selection has no effect on the curves, so no curve shows that it is ignored.", "anchors": ["Shiny-PAC/PACapp.R:297-436", "Shiny-PAC/PACapp.R:674-686", "Shiny-PAC/PAC.py:440-579"]}
{"id": "C163", "title": "Dose calculator of the powdered carbon application", "statement": "For every range of the slider and number of doses the evenly spaced doses from end to end are simulated, and for each contact time and compound the concentration at each dose is shown in the chosen units.", "quantifier": "all ranges, numbers of doses, units, models", "why_tests_cant": "Equal ends of the slider are an unusual choice.", "anchors": ["Shiny-PAC/PACapp.R:735-747", "Shiny-PAC/PACapp.R:796-805", "Shiny-PAC/PAC.py:953-999"]}
{"id": "C164", "title": "Contact times for a target are those of the water in the table", "statement": "The contact times shown are those after which the effluent of the compounds table, in its own units, is at the target.", "quantifier": "all models, targets, offered units", "why_tests_cant": "The default units happen to be those of the example.", "anchors": ["Shiny-PAC/PACapp.R:762", "Shiny-PAC/PACapp.R:477-478", "Shiny-PAC/PAC.py:1063-1125"]}
{"id": "C165", "title": "An upload replaces the earlier inputs", "statement": "After an upload each input table is that of the uploaded workbook, and the default one when the workbook does not have it.", "quantifier": "all sequences of uploads", "why_tests_cant": "Depends on what was uploaded before, by anyone.", "anchors": ["Shiny-PAC/PACapp.R:115-161", "Shiny-PAC/PACapp.R:522-529"]}
{"id": "C166", "title": "The form shows what was uploaded", "statement": "After an upload the form holds the numbers of the uploaded tables.", "quantifier": "all tables", "why_tests_cant": "Rounding shows only for numbers with more than four digits, in tables without a word among the values.", "anchors": ["Shiny-PAC/PACapp.R:544-561", "Shiny-PAC/PACapp.R:573-653"]}
{"id": "C167", "title": "A saved workbook brings back the form", "statement": "Uploading a saved workbook restores the inputs that were in the form when it was saved.", "quantifier": "all forms, all tables, all states of the application it is uploaded to", "why_tests_cant": "Needs a round trip through two sessions.", "anchors": ["Shiny-PAC/PACapp.R:541-542", "Shiny-PAC/PACapp.R:842-859"]}
{"id": "C168", "title": "Measured points of the carbon application over the influent", "statement": "With c/c0 chosen each measured point on the plot is, under the name of its compound and at its time, the measurement over the first influent concentration of that compound; none is left out.", "quantifier": "all tables of measurements, any number of compounds and rows", "why_tests_cant": "The example workbook has one compound, for which the order of the points does not matter.", "anchors": ["Shiny-GAC/GACapp.R:260-343", "Shiny-GAC/GACapp.R:403-433", "Shiny-GAC/GACapp.R:1198-1220", "Shiny-GAC/GACapp.R:1250-1300"]}
{"id": "C169", "title": "Measurements survive saving and uploading", "statement": "Uploading a saved workbook brings back both tables of measurements with their rows and columns in the order they had, whenever times and compounds differ within each table.", "quantifier": "all tables, with any missing cells", "why_tests_cant": "Needs a round trip through the long form of the sheet.", "anchors": ["Shiny-GAC/GACapp.R:145-148", "Shiny-GAC/GACapp.R:446-465", "Shiny-GAC/GACapp.R:1323-1340"]}
{"id": "C170", "title": "The column survives saving and uploading", "statement": "Uploading a saved workbook brings back the column: the model then gets the same numbers.", "quantifier": "all forms, all states of the application it is uploaded to", "why_tests_cant": "The velocity is lost only for columns given by their velocity.", "anchors": ["Shiny-GAC/GACapp.R:472-478", "Shiny-GAC/GACapp.R:923-1061", "Shiny-GAC/GACapp.R:193-256"]}
{"id": "C171", "title": "The check before a run keeps out beds without voids", "statement": "A run that passes the check is of a column whose void fraction in the model is between 0 and 1, with known types of water and compounds.", "quantifier": "all forms with positive sizes, weight and density, in all units", "why_tests_cant": "Needs densities in the unusual order.", "anchors": ["Shiny-GAC/GACapp.R:1101-1120", "PSDM/psdm/PSDM.py:205-215"]}
{"id": "C172", "title": "The button Use", "statement": "Use puts the fitted isotherms in the place of those on the screen and leaves everything else; before a fit it does not change the isotherms.", "quantifier": "all sessions, all fits", "why_tests_cant": "Depends on what was done before in the session, and its effect shows in a later session.", "anchors": ["Shiny-GAC/GACapp.R:1145-1190"]}
{"id": "C173", "title": "Results on the screen belong to their run", "statement": "After any sequence of actions a result on the screen is that of a run which passed the check, and it is drawn with the flow and the units of that run.", "quantifier": "all sequences of edits, runs, fits, uploads and reloads", "why_tests_cant": "Needs a change of the form after a run.", "anchors": ["Shiny-GAC/GACapp.R:1101-1140", "Shiny-GAC/GACapp.R:1230-1258"]}
{"id": "C174", "title": "The carbon application runs what is on the screen", "statement": "The model is called with the column, tables, fouling and numbers of collocation points on the screen.", "quantifier": "all sessions", "why_tests_cant": "The sliders start at the numbers that are always used.", "anchors": ["Shiny-GAC/GACapp.R:963-964", "Shiny-GAC/GACapp.R:1127", "Shiny-GAC/GACapp.R:1158"]}
{"id": "C175", "title": "An upload to the carbon application replaces the earlier inputs", "statement": "After an upload each input is that of the workbook, and the default one when the workbook does not have it.", "quantifier": "all sequences of uploads", "why_tests_cant": "Depends on what was uploaded before, by anyone.", "anchors": ["Shiny-GAC/GACapp.R:116-186", "Shiny-GAC/GACapp.R:908-915"]}
{"id": "C176", "title": "Saved results of the ion exchange application", "statement": "The sheet of results in a saved workbook is in the units of the ion sheet for the choice \"Input Concentration Units\", and in those of the plot for \"Output Concentration Units\".", "quantifier": "all ion sheets with units of the manual, all computed curves", "why_tests_cant": "The default ion sheet happens to have PFOA in ng and the rest in meq.", "anchors": ["Shiny-IEX/Ion_Exchange_Model.R:1056-1097", "Shiny-IEX/Ion_Exchange_Model.R:2259-2265", "Shiny-IEX/Ion_Exchange_Model.R:2532-2548"]}
{"id": "C177", "title": "The parameters of the ion exchange application survive saving and uploading", "statement": "Uploading a saved workbook brings back the numbers of the run, for columns given by velocity or by flow rate and for both models.", "quantifier": "all forms, all forms of the session it is loaded into", "why_tests_cant": "Needs a round trip through a sheet, over all units.", "anchors": ["Shiny-IEX/Ion_Exchange_Model.R:961-992", "Shiny-IEX/Ion_Exchange_Model.R:1830-1961", "Shiny-IEX/Ion_Exchange_Model.R:1974-1983", "Shiny-IEX/Ion_Exchange_Model.R:2519-2529"]}
{"id": "C178", "title": "Results of the ion exchange application belong to their run", "statement": "After any sequence of actions the curves on the screen are those of a successful run, under the names of the ions of that run.", "quantifier": "all sequences of edits, runs and uploads, all solvers", "why_tests_cant": "Needs a change of the ion sheet and a run that is refused.", "anchors": ["Shiny-IEX/Ion_Exchange_Model.R:2185-2258", "Shiny-IEX/Ion_Exchange_Model.R:2378-2379"]}
{"id": "C179", "title": "Measured effluent in the ion exchange application", "statement": "Every measurement of the effluent is a point of the plot: under its ion, at its time and in the chosen units, or over the first influent concentration of its ion.", "quantifier": "all tables with ions of the ion sheet, all units", "why_tests_cant": "Needs an effluent without one of the ions, or with another order of columns.", "anchors": ["Shiny-IEX/Ion_Exchange_Model.R:903-946", "Shiny-IEX/Ion_Exchange_Model.R:1101-1212", "Shiny-IEX/Ion_Exchange_Model.R:2338-2387", "Shiny-IEX/Ion_Exchange_Model.R:2426-2503"]}
{"id": "C180", "title": "Influent points in the ion exchange application", "statement": "Every row of the influent is a point of the plot: under its ion, at its time and in the chosen units, or over the first concentration of its ion.", "quantifier": "all influents whose columns are the ions in any order, all units", "why_tests_cant": "All combinations of units and orders of columns.", "anchors": ["Shiny-IEX/Ion_Exchange_Model.R:1101-1111", "Shiny-IEX/Ion_Exchange_Model.R:1145-1212", "Shiny-IEX/Ion_Exchange_Model.R:2102-2133", "Shiny-IEX/Ion_Exchange_Model.R:2378-2382"]}
{"id": "C181", "title": "Arguments of a run of the ion exchange application", "statement": "The solvers get lengths in cm, velocity in cm/s, transport coefficients in cm/s and cm2/s and the unit of time in seconds, as they are on the form.", "quantifier": "all forms and ion sheets with units of the menus", "why_tests_cant": "All combinations of units.", "anchors": ["Shiny-IEX/Ion_Exchange_Model.R:961-992", "Shiny-IEX/Ion_Exchange_Model.R:1023-1039"]}
{"id": "C182", "title": "An upload to the ion exchange application replaces the earlier inputs", "statement": "After an upload each table is that of the workbook, and the default one when the workbook does not have it.", "quantifier": "all sequences of uploads", "why_tests_cant": "Depends on what was uploaded before.", "anchors": ["Shiny-IEX/Ion_Exchange_Model.R:727-798", "Shiny-IEX/Ion_Exchange_Model.R:1808-1810"]}
{"id": "C183", "title": "Errors of the grid search belong to their constants", "statement": "In run_all the table of errors has a row for each pair of K multiplier and 1/n, and its error is that of the compound simulated alone in the column as it was at the start with those constants; the constants stored are the pair found in such a table.", "quantifier": "all columns, compounds, grids, simulators and minimum searches", "why_tests_cant": "The object is changed and restored by each of the trials, for each compound.", "anchors": ["PSDM/psdm/PSDM.py:839-897", "PSDM/psdm/PSDM.py:959-963", "PSDM/psdm/PSDM.py:1007-1008", "PSDM/psdm/PSDM.py:1659-1762"]}
{"id": "C184", "title": "Grid search in the copy of the carbon column of the web application", "statement": "In run_all of Shiny-GAC/psdm/PSDM.py the error beside each pair of K multiplier and 1/n is that of the compound simulated with those constants.", "quantifier": "all columns, compounds, grids and simulators, isotherms not from a list", "why_tests_cant": "The copy lacks two lines of the original and still returns numbers.", "anchors": ["Shiny-GAC/psdm/PSDM.py:886-911"]}
{"id": "C185", "title": "Staged refinement keeps the best point", "statement": "In the staged search of run_all the grid of the next loop spans the K multiplier and the 1/n chosen in this loop.", "quantifier": "all ranges, grid sizes, loops and tables of errors", "why_tests_cant": "Depends on where in the grid the minimum lies and how the bounds round.", "anchors": ["PSDM/psdm/PSDM.py:859-882", "PSDM/psdm/PSDM.py:905-959", "PSDM/psdm/PSDM_functions.py:999-1023"]}
{"id": "C186", "title": "A lead-lag object without error got its inputs", "statement": "If making a lead-lag object reports no error, it was given properties of the compounds, raw data as a table and, for carbon, isotherms as a table. Without a workbook its ions are the counter ions followed by the compounds with a selectivity, none twice.", "quantifier": "all keywords and workbooks", "why_tests_cant": "The flag is set and reset by several independent inputs.", "anchors": ["PSDM/psdm/lead_lag_class.py:135-186", "PSDM/psdm/lead_lag_class.py:282-318"]}
{"id": "C187", "title": "Missing lead-lag inputs are reported by the flag", "statement": "If an input a lead-lag object needs is missing, the object is made and its error flag is set.", "quantifier": "all keywords and workbooks", "why_tests_cant": "Combinations of missing inputs.", "anchors": ["PSDM/psdm/lead_lag_class.py:135-339", "PSDM/psdm/lead_lag_class.py:371-373"]}
{"id": "C188", "title": "A lead-lag object without error can be run", "statement": "If making a lead-lag object reports no error, its resin inputs can be written for the resin model and its column is one the carbon model takes.", "quantifier": "all keywords and workbooks", "why_tests_cant": "Defaults are only used by callers that leave keywords out.", "anchors": ["PSDM/psdm/lead_lag_class.py:56-83", "PSDM/psdm/lead_lag_class.py:194-200", "PSDM/psdm/lead_lag_class.py:222-278", "PSDM/psdm/PSDM.py:192-206"]}
{"id": "C189", "title": "Compounds of a mixed lead-lag system", "statement": "run_LL_gac_ix and run_LL_ix_gac simulate in the carbon vessel those of the compounds asked for that both data sets have.", "quantifier": "all lists of compounds, raw data, resin influents and isotherms", "why_tests_cant": "All combinations of sets of compounds.", "anchors": ["PSDM/psdm/lead_lag_class.py:667-673", "PSDM/psdm/lead_lag_class.py:703-723", "PSDM/psdm/lead_lag_class.py:807-813", "PSDM/psdm/lead_lag_class.py:830-897", "PSDM/psdm/lead_lag_class.py:903-911"]}
{"id": "C190", "title": "Parameters and times of the resin workbook of a lead-lag system", "statement": "With a workbook the numbers of points are those of the keywords, the other parameters those of the workbook, and the influent times are those of the workbook in days.", "quantifier": "all workbooks with time in a unit the resin model accepts", "why_tests_cant": "All units and orders of rows.", "anchors": ["PSDM/psdm/lead_lag_class.py:282-311", "IonExchangeModel/ixpy/paramsheets.py:120-125"]}
{"id": "C191", "title": "Jacobian by differences", "statement": "Entry (i, j) of calc_Jac is the derivative of rate i by unknown j: exactly for an affine right-hand side, in the limit of small steps with an error at most the step times the Lipschitz constant of the derivative otherwise, and zero wherever spar_Jac of the carbon column is.", "quantifier": "all right-hand sides, states and steps", "why_tests_cant": "A continuum of states; the pattern depends on the numbers of compounds and points.", "anchors": ["PSDM/psdm/PSDM_functions.py:813-833", "PSDM/psdm/PSDM_functions.py:835-907"]}
{"id": "C192", "title": "Fits of all compounds at once", "statement": "analyze_all returns, and for every compound the K and 1/n it stores have an error no larger than any other pair of the ranges asked for.", "quantifier": "all columns, ranges and ways the pool shares out the compounds", "why_tests_cant": "Depends on how compounds are shared among processes and on every simulation.", "anchors": ["PSDM/psdm/PSDM_tools.py:649-702", "PSDM/psdm/PSDM.py:1659-1761"]}
{"id": "C193", "title": "Diffusion fits of all compounds at once", "statement": "When every fit returns, analyze_all_ds returns and rows ds and base_ds hold for every compound the coefficient and the base of its fit.", "quantifier": "all columns and ways the pool shares out the compounds", "why_tests_cant": "Depends on how compounds are shared among processes and on every simulation.", "anchors": ["PSDM/psdm/PSDM_tools.py:704-758", "PSDM/psdm/PSDM.py:1764-1824"]}
{"id": "C194", "title": "Zeros in the table of process_raw_data", "statement": "The table of process_raw_data shows a concentration of zero only where one at or below the reporting limit was measured.", "quantifier": "all files of measurements and limits", "why_tests_cant": "All patterns of missing measurements.", "anchors": ["PSDM/psdm/PSDM_functions.py:318-354"]}
{"id": "C195", "title": "Older readers agree with process_input_file", "statement": "process_raw_data_new and the copy of process_input_file in the web application make the same table of a data sheet as process_input_file.", "quantifier": "all data sheets and reporting limits", "why_tests_cant": "All patterns of missing measurements and values at the limit.", "anchors": ["PSDM/psdm/PSDM_functions.py:201-266", "PSDM/psdm/PSDM_functions.py:390-453", "Shiny-GAC/psdm/PSDM_functions.py:201-266"]}
{"id": "C196", "title": "Full-scale prediction of several compounds", "statement": "predict_full_scale simulates every compound on its own with its K and 1/n at the time of the call, and finds the rotation from these curves.", "quantifier": "all column objects, compounds, days and targets; data that reach the last day", "why_tests_cant": "Depends on the state every simulation leaves behind.", "anchors": ["PSDM/psdm/PSDM_tools.py:205-318", "PSDM/psdm/PSDM.py:1659-1761"]}
{"id": "C197", "title": "A prediction leaves the object as it was", "statement": "A call of predict_full_scale that returns leaves the column object as it was, except for the record of the coefficients used.", "quantifier": "all column objects, compounds, days and targets", "why_tests_cant": "Depends on the state every simulation leaves behind and on copies that share memory.", "anchors": ["PSDM/psdm/PSDM_tools.py:213-231", "PSDM/psdm/PSDM_tools.py:310-318", "PSDM/psdm/PSDM.py:721-735"]}
{"id": "C198", "title": "Capacity from a day given by the user", "statement": "With break_type='force' the estimate of K, q and the average influent is the uptake of the carbon up to the day given for the compound.", "quantifier": "all data sets and days", "why_tests_cant": "A continuum of data and days; some days have meanings of their own.", "anchors": ["PSDM/psdm/PSDM.py:653-719"]}
{"id": "C199", "title": "K by 1/n of a forced estimate", "statement": "For every 1/n of the grid the function k_by_xn of a forced estimate gives the K that goes with the q of the estimate.", "quantifier": "all data sets, days and values of 1/n", "why_tests_cant": "A continuum of data.", "anchors": ["PSDM/psdm/PSDM.py:422", "PSDM/psdm/PSDM.py:653-719"]}
{"id": "C200", "title": "Isotherms given by the caller", "statement": "A table of isotherms given as k_data is the one the object uses, and the table of the caller is left as it is.", "quantifier": "all tables, days of breakthrough and compounds", "why_tests_cant": "All tables of days, with repeated rows.", "anchors": ["PSDM/psdm/PSDM.py:282-318"]}
{"id": "C201", "title": "Saved results of the batch models", "statement": "save_results of the batch models takes the units of time that of the columns takes, gives the times in that unit and every concentration in the unit asked for, or else the unit of its ion.", "quantifier": "all ions, units, times and results", "why_tests_cant": "All combinations of units, weights and valences.", "anchors": ["IonExchangeModel/ixpy/hsdmixbatch.py:25-110", "IonExchangeModel/ixpy/psdmixbatch.py:25-109"]}
{"id": "C202", "title": "Command line of the resin models", "statement": "python -m ixpy runs the model named and writes its result with times in the unit of -t, hours without it, and concentrations in the unit of -c, those of the input without it.", "quantifier": "all modes, options and results", "why_tests_cant": "All combinations of options and units.", "anchors": ["IonExchangeModel/ixpy/runner.py:15-50", "IonExchangeModel/ixpy/__main__.py:5-12", "IonExchangeModel/ixpy/hsdmix.py:233-277"]}
{"id": "C203", "title": "Resin volume of a batch sheet", "statement": "A batch sheet with the resin volume VR uses it; one with mass, water content and density of the resin has the volume of the dry resin in litres.", "quantifier": "all parameter sheets and units", "why_tests_cant": "All orders of rows and units.", "anchors": ["IonExchangeModel/ixpy/paramsheets.py:425-481", "IonExchangeModel/ixpy/hsdmixbatch.py:128"]}
{"id": "C204", "title": "Numbers in saved files", "statement": "A positive concentration of the result is positive in the file save_results writes.", "quantifier": "all results", "why_tests_cant": "A continuum of values.", "anchors": ["IonExchangeModel/ixpy/hsdmix.py:275", "IonExchangeModel/ixpy/hsdmixbatch.py:108"]}
{"id": "C205", "title": "What the discretised bead dissipates", "statement": "On the radial grid of the code, with any number of nodes, the discrete operators satisfy summation by parts. In a homogeneous bead the squared loading of an ion changes by what the film brings, less the surface diffusivity times a nonnegative roughness that vanishes for uniform beads only.", "quantifier": "all node counts, profiles, states and parameters", "why_tests_cant": "All profiles and all grids.", "anchors": ["IonExchangeModel/ixpy/colloc.py:105-165", "IonExchangeModel/ixpy/hsdmix.py:506-526", "IonExchangeModel/ixpy/hsdmixbatch.py:262-288"]}
{"id": "C206", "title": "Profiles at rest under advection", "statement": "The axial operator of one element or of finite elements, its inlet row aside, is zero on uniform profiles and on no others; at the boundary of two elements it is a weighted mean, with positive weights, of the slopes on both sides.", "quantifier": "all numbers of elements and nodes, all profiles", "why_tests_cant": "All profiles and all grids.", "anchors": ["IonExchangeModel/ixpy/colloc.py:68-102", "IonExchangeModel/ixpy/colloc.py:168-245", "PSDM/psdm/PSDM_functions.py:592-635"]}
{"id": "C207", "title": "Batch contactors stand still only at equilibrium", "statement": "The rates of a batch run are all zero exactly when every bead is uniform and the water is in equilibrium with it.", "quantifier": "all parameters and states, homogeneous and pore models", "why_tests_cant": "A continuum of states; a spurious steady state is not seen by running from one start.", "anchors": ["IonExchangeModel/ixpy/hsdmixbatch.py:247-288", "IonExchangeModel/ixpy/psdmixbatch.py:247-302"]}
{"id": "C208", "title": "Columns stand still only when exhausted", "statement": "The rates of a column run are all zero exactly when the water below the inlet is the influent, every bead is uniform and in equilibrium with the influent.", "quantifier": "all parameters and states with one total loading across each bead, both models and both axial operators", "why_tests_cant": "A continuum of states; a spurious steady state is not seen by running from one start.", "anchors": ["IonExchangeModel/ixpy/hsdmix.py:467-530", "IonExchangeModel/ixpy/psdmix.py:263-346"]}
{"id": "C209", "title": "Runs of the ion exchange models exist and are determined by their start", "statement": "From the states the code starts with, columns and batch contactors of both models, with or without divalent ions, have an exact solution for some time. Two solutions that start in one state under one continuous influent agree as long as the equilibrium formulas stay regular, whatever is stored at the inlet. So a continued run can only be the rest of the run it continues.", "quantifier": "all parameters, continuous influents, starting states", "why_tests_cant": "Existence and uniqueness speak of all functions of time.", "anchors": ["IonExchangeModel/ixpy/hsdmix.py:467-530", "IonExchangeModel/ixpy/psdmix.py:263-346", "IonExchangeModel/ixpy/hsdmixbatch.py:247-288", "IonExchangeModel/ixpy/psdmixbatch.py:247-302"]}
{"id": "C210", "title": "Inside a bead loadings turn negative right after the start", "statement": "With three or more bead points, a column or batch contactor started with beads free of some ion that its water carries reaches negative loadings of that ion inside the bead, at once and in every exact solution, for both models. So the start the code uses leads to negative loadings for every ion but the presaturant (in batch runs: every such ion that is not divalent), whatever the time step and tolerance.", "quantifier": "all parameters, influents, grids of at least three bead points, exact solutions", "why_tests_cant": "A run can show a small negative number and leave open whether it is round-off; the claim is about the exact solution for every grid.", "anchors": ["IonExchangeModel/ixpy/colloc.py:136-166", "IonExchangeModel/ixpy/hsdmix.py:467-530", "IonExchangeModel/ixpy/psdmix.py:263-346", "IonExchangeModel/ixpy/hsdmixbatch.py:247-288", "IonExchangeModel/ixpy/psdmixbatch.py:247-302"]}
{"id": "C211", "title": "Runs of the carbon models exist and are determined by their start", "statement": "For Freundlich exponents in (0,1] and positive coefficients the rates of the granular carbon column, with competition and with the clipping of negative loadings, and those of the powdered carbon contactor are locally Lipschitz. From every state an exact solution exists for some time, and two solutions from one state agree. The influent, fouling and tortuosity values the column reads between whole minutes are continuous in time whatever the tables hold.", "quantifier": "all compounds with exponents at most 1, tables, starting states, grids", "why_tests_cant": "Existence and uniqueness speak of all functions of time; clipping and the vanishing total loading break smoothness.", "anchors": ["PSDM/psdm/PSDM.py:1511-1625", "Shiny-PAC/PAC.py:816-897"]}
{"id": "C212", "title": "A powdered carbon contactor runs for all time and tends to equilibrium", "statement": "For physical parameters with surface diffusivity positive and at most the pore diffusivity, and the radial grid of the code with any number of points: from every state with nonnegative concentrations the contactor has exactly one run for all time. Each run tends to a state where every compound is uniform on the carbon and in equilibrium with the water; these are exactly the states at rest. Started as the code starts it, the effluent tends to C0 times the one c >= 0 with E*c + (1-E)*1000*density*K*c^(1/n) = E, whatever film, pore and surface diffusion coefficients and grid.", "quantifier": "all physical parameters, numbers of compounds and radial points, starting states", "why_tests_cant": "A statement about all times and all states; tests stop at a duration.", "anchors": ["Shiny-PAC/PAC.py:816-897"]}
{"id": "C213", "title": "The line estimated from the last two effluent samples", "statement": "When neither the search over days nor the logistic fit gives a breakthrough time and the last effluent sample is at least a quarter of the average influent, the breakthrough time is the day, rounded, on which the straight line through the last and the second to last sample reaches the average influent; otherwise it is where the fitted regression line reaches it.", "quantifier": "all data tables, fits, regressions", "why_tests_cant": "A claim about all series of samples.", "anchors": ["PSDM/psdm/PSDM.py:551-596"]}
{"id": "C214", "title": "Loadings inside clean carbon turn negative right after the start", "statement": "With three or more radial points, exact solutions of the powdered and of the granular carbon equations that start with clean carbon have a negative loading right after the start: at one and the same inner radial point, for every compound in the water around a powdered particle, and at the inlet of the column for every compound in the influent.", "quantifier": "all columns, contactors, compounds, exact solutions", "why_tests_cant": "Negative values as soon as time passes would be put down to solver tolerance.", "anchors": ["PSDM/psdm/PSDM.py:1526-1624", "Shiny-PAC/PAC.py:816-898"]}
{"id": "C215", "title": "A carbon column with one compound runs for as long as its inputs are given", "statement": "The granular carbon equations of a column with a single compound have, from every state and over every time within the tables of influent, fouling and tortuosity factors, exactly one exact solution: concentrations and loadings cannot run off to infinity before the end, whatever the influent, numbers of collocation points and axial matrix.", "quantifier": "all columns, single compounds, influents, positive fouling and tortuosity factors, collocation matrices, start states, durations", "why_tests_cant": "Blow up in finite time cannot be excluded by running the solver on samples.", "anchors": ["PSDM/psdm/PSDM.py:1473-1519", "PSDM/psdm/PSDM.py:1526-1624"]}
{"id": "C216", "title": "Right after the start the effluent reacts at once, downwards or upwards by the parity of the axial grid", "statement": "In an exact solution of the column equations with one axial element, started without the compound in water and beads, the concentration at the k-th axial point gets the sign -(-1)^k right after the start for every compound (ion other than the presaturant) of the influent. So the effluent is negative at once when the number of interior axial points is odd, as with the default grids, and positive at once, before any influent can have passed the bed, when it is even.", "quantifier": "all column parameters, numbers of axial and radial points, influents, compounds or ions, both ion exchange models and the carbon model", "why_tests_cant": "The sign right after the start is below the tolerances of the solver and of any comparison; the claim ranges over all grids.", "anchors": ["PSDM/psdm/PSDM.py:1601-1611", "PSDM/psdm/PSDM.py:1617-1637", "IonExchangeModel/ixpy/hsdmix.py:492-526", "IonExchangeModel/ixpy/hsdmix.py:560-571", "IonExchangeModel/ixpy/psdmix.py:296-338", "IonExchangeModel/ixpy/colloc.py:86-103"]}
{"id": "C217", "title": "The checks after an ion exchange run warn about wrong runs only", "statement": "After an exact run as the code starts it, sampled at any times, solve prints neither 'Total outlet does not follow total inlet!' nor 'Sum of resin concentrations is not Q!' (columns), nor the latter in the batch models. The resin check of a column depends on the start state alone, for every integration scheme, and the check for negative concentrations on the last stored time alone.", "quantifier": "all columns, influents, exact runs and sampling times; all batch runs; all schemes", "why_tests_cant": "The claims range over all exact solutions and schemes.", "anchors": ["IonExchangeModel/ixpy/hsdmix.py:560-571", "IonExchangeModel/ixpy/psdmix.py:376-387", "IonExchangeModel/ixpy/hsdmixbatch.py:315-316", "IonExchangeModel/ixpy/psdmixbatch.py:329-330"]}
{"id": "C218", "title": "Ion exchange results do not depend on the units of length, time and concentration", "statement": "Giving the same column with numbers lam times as large for lengths, th times for times and ka times for concentrations (velocities and film coefficients lam/th times, diffusivities lam^2/th times) gives the same run: the rates and states are ka times as large at the same dimensionless times, and the time scale is th times as large. The same holds for batch runs. Bed length and velocity only count by their ratio, resin and water volume in a batch run only by theirs.", "quantifier": "all columns, batch runs, states, influents and exact runs; all nonzero factors", "why_tests_cant": "A test compares a few unit systems; the claim is for all factors and all states.", "anchors": ["IonExchangeModel/ixpy/hsdmix.py:370-536", "IonExchangeModel/ixpy/psdmix.py:225-345", "IonExchangeModel/ixpy/hsdmixbatch.py:113-318", "IonExchangeModel/ixpy/psdmixbatch.py:112-318"]}
{"id": "C219", "title": "A small column designed by calc_RSSCT_specs behaves in run_psdm like the large one", "statement": "Take a carbon column, let build_large_scale_column and calc_RSSCT_specs design a small column for smaller grains with power_x=0, and simulate both with run_psdm, film coefficients by correlation. Then diffun is the same function for both, the time scale of the small one is the squared ratio of the grain sizes times the large one's, as the design says of the duration, and exact runs under the same relative influent give the same relative effluent after as many bed volumes. Tables in minutes (fouling) are read at correspondingly earlier minutes. With power_x=1 and diffusivities in proportion to the grains everything agrees except the Stanton numbers, which grow by the ratio of the grains.", "quantifier": "all columns, grain sizes, small column diameters, compounds, grids and exact runs", "why_tests_cant": "A test compares two simulated curves; the claim is for all columns and compounds, with no discretisation error.", "anchors": ["PSDM/psdm/PSDM.py:192-219", "PSDM/psdm/PSDM.py:1332-1466", "PSDM/psdm/PSDM.py:1533-1615", "PSDM/psdm/PSDM_extra.py:116-294"]}
{"id": "C220", "title": "Batch ion exchange runs end in the equilibrium of what the vessel holds", "statement": "Take a batch contactor (HSDM or PSDM) with monovalent ions and the operators solve() builds. Without selectivity (all K equal to 1), for any number of ions and from every state with the right totals, there is an exact run for all time, it is the only one, the water tends to the total concentration times the share of the ion in the contents of the vessel and every bead point to the capacity times that share. For two ions with any selectivity there is exactly one pair of loadings and concentrations that obeys the law of mass action, both totals and the balance, and every exact run from the start of solve() whose loadings stay in an interval on which the equilibrium is regular tends to it. Such a run exists for all time, and is the only one, if the second ion is little in amount against the resin (explicit bound with the weights of the bead points), and always with one bead point or in the homogeneous model.", "quantifier": "all contactors with positive parameters and Dp at least Ds, all numbers of bead points, all influents, all exact runs", "why_tests_cant": "A simulation stops at a finite time; a limit, and that no other run exists, are statements about all times and all functions.", "anchors": ["IonExchangeModel/ixpy/hsdmixbatch.py:113-318", "IonExchangeModel/ixpy/psdmixbatch.py:112-318", "IonExchangeModel/ixpy/colloc.py:1-200"]}
{"id": "C221", "title": "The concentrations of a mixture determine its loadings, and competition does not raise them", "statement": "For any number of components with positive Freundlich parameters and any positive concentrations, ideal adsorbed solution theory has exactly one set of positive loadings. So the equations fcn that run_ecm solves for its first zone have exactly one positive solution and no other with a positive base of the power; the first row of qstore and cstore, bvf[0] and days_to_breakthrough[0] do not depend on which root finder found it. With no 1/n above one the starting guess K*Co**(1/n) bounds the loadings from above, so the first front moves at least as fast as that component alone; a component alone has exactly the guess; with a 1/n above one a loading can exceed that of the component alone. With 1/n = 1/2 the opposite of a solution is a solution too. In the granular carbon column positive pore concentrations belong to exactly one vector of loadings, with any fouling factors, and the bed in equilibrium with its influent holds of each compound at most the single-solute capacity if no 1/n exceeds one.", "quantifier": "all numbers of components, all positive K, 1/n, molecular weights and concentrations, all root finders", "why_tests_cant": "Uniqueness of a solution of nonlinear equations for all parameters cannot be observed by solving some of them.", "anchors": ["PSDM/psdm/ecm.py:42-74", "PSDM/psdm/ecm.py:132-143", "PSDM/psdm/PSDM.py:1553-1569"]}
{"id": "C222", "title": "Equilibrium columns with a common exponent are determined, in order and displace", "statement": "Take run_ecm with one exponent 1/n <= 1 for all components and capacities falling from the first component on. In every zone the equations fcn_extra have exactly one positive solution, so a root finder with positive roots exists and any two give the same qstore, cstore and vw. The fronts are in order: each moves faster than the one behind it. Ahead of a front every remaining component has loading and concentration at least those behind it, strictly higher if 1/n < 1, while the total loading is lower. So the plotted curve of a component is zero up to its day of breakthrough and at or above its influent afterwards. The order is needed: with the weaker component first there is a column whose second zone has two positive solutions with different results.", "quantifier": "all numbers of components, all such tables and beds, all root finders", "why_tests_cant": "The statement is about every solution of the equations of every zone, for any number of zones.", "anchors": ["PSDM/psdm/ecm.py:76-96", "PSDM/psdm/ecm.py:145-172", "PSDM/psdm/ecm.py:261-275"]}
{"id": "C223", "title": "What fit_ecm2 compares", "statement": "The error that fit_ecm2 minimises is zero exactly when, for every compound of conc_dict, the plotted curve agrees with the data at every whole day the data cover. False: the days are 0, 1, ... strictly before the last time of the compound listed first, so a last whole day is never compared and later data of the other compounds are not either. What holds: the error is the sum of squares over the compounds and those days, is never negative, is zero exactly when curves and data agree there, does not depend on anything later, and is zero for data produced by the model at the parameters that produced them; with no compound, with one that is no column of the object, or with data that cannot be read on such a day, it raises.", "quantifier": "all numbers of components, all compounds, curves, data and trial parameters", "why_tests_cant": "An iff over all curves and data; a test fits one data set and looks at the result.", "anchors": ["PSDM/psdm/ecm.py:217-259", "PSDM/psdm/ecm.py:261-275"]}
{"id": "C224", "title": "fit_ecm2 and the order of the compounds", "statement": "The error that fit_ecm2 minimises does not depend on the order in which conc_dict lists the compounds. False: the compound listed first decides which days are compared. It holds when the data of all compounds end at the same time.", "quantifier": "all dictionaries and their permutations", "why_tests_cant": "All orders of all dictionaries.", "anchors": ["PSDM/psdm/ecm.py:246-254"]}
{"id": "C225", "title": "The points run_all_smart tries", "statement": "Every pair of constants that run_all_smart simulates for a compound is a 1/n of its grid together with the capacity of the compound at that 1/n (its capacity function, or the K of its table) times a factor of its grid, or the start itself. False for a compound whose K was supplied: a look at a position already known writes the multiplied K into the table without a run that would put it back, and so does a run that raises, and the next base K is read from the table, so the factors pile up. It holds for compounds with a capacity function.", "quantifier": "all simulations, columns, grids, limits and paths of the search", "why_tests_cant": "The drift depends on which positions the search meets twice; a test that looks at the fitted values sees plausible numbers.", "anchors": ["PSDM/psdm/PSDM.py:1059-1083", "PSDM/psdm/PSDM.py:1144-1156", "PSDM/psdm/PSDM.py:1173-1255"]}
{"id": "C226", "title": "How good the result of run_all_smart is", "statement": "For a compound with a capacity function, the constants run_all_smart keeps have an error no larger than that of the start, of five evenly spread 1/n values (first and last included) at the starting factor, and of all grid neighbours of the best of these; and unless the search ran into its limit it passed a position of the grid whose error exceeds that of none of its four neighbours by more than 1e-7, and the constants kept are no worse than that position.", "quantifier": "all simulations, columns, grids and limits", "why_tests_cant": "A local minimum over all error surfaces; a test has one surface.", "anchors": ["PSDM/psdm/PSDM.py:1110-1158", "PSDM/psdm/PSDM.py:1164-1296"]}
{"id": "C227", "title": "Settings after a fit", "statement": "run_all, run_all_MP and run_all_smart leave the optimise flag, the K multipliers and the 1/n values of the object as they were. False: run_all_smart leaves the flag off and rounds the 1/n values to five decimals, and nothing is put back when a run raises. It holds for run_all and run_all_MP when they return; run_all_smart keeps the multipliers.", "quantifier": "all simulations, columns and settings", "why_tests_cant": "All settings; a test that fits and stops does not look at the flag.", "anchors": ["PSDM/psdm/PSDM.py:824-827", "PSDM/psdm/PSDM.py:1010-1012", "PSDM/psdm/PSDM.py:1097-1102", "PSDM/psdm/PSDM.py:1304-1309", "PSDM/psdm/PSDM.py:2054-2057", "PSDM/psdm/PSDM.py:2151-2153"]}
{"id": "C228", "title": "What the relative effluent of a carbon column depends on", "statement": "Capacities, molar masses and influent concentrations enter the equations and the time scale of run_psdm only by each compound's capacity over concentration at the first influent value and by the mole ratios of the compounds. So influents ka times as large with K in the matching units (ka^(1-1/n) times as large) give effluents ka times as large; molar masses that are all larger by one factor change nothing; with one compound the molar mass has no influence at all, and with one compound and exponent 1 the relative effluent is the same at every concentration. The first influent values must not be zero.", "quantifier": "all columns, mixtures, exponents, factors, tables, grids and exact runs", "why_tests_cant": "A test compares a few concentrations; the claim is for all factors and mixtures.", "anchors": ["PSDM/psdm/PSDM.py:1372-1377", "PSDM/psdm/PSDM.py:1413-1470", "PSDM/psdm/PSDM.py:1637"]}
{"id": "C229", "title": "The order of the compounds of a carbon column", "statement": "Listing the compounds in another order gives run_psdm the same arrays in that order and the same time scale, diffun the same rates in that order, and every compound the same effluent.", "quantifier": "all permutations, columns, mixtures, states, tables", "why_tests_cant": "All orders of all mixtures.", "anchors": ["PSDM/psdm/PSDM.py:1438-1463", "PSDM/psdm/PSDM.py:1489-1508", "PSDM/psdm/PSDM.py:1533-1615"]}
{"id": "C230", "title": "Compounds that are not in the water", "statement": "A compound in the list of which nothing is in the influent or on the carbon stays absent and has no influence on the others. False of the code: the factor dgt/(1+dgt) on all transfer rates depends on the list of compounds. It holds up to that factor: rates inside the beads and film transfer are multiplied by one number between 1 and 1 + 1/dgt, the flow is not.", "quantifier": "all columns, mixtures, states", "why_tests_cant": "A difference of less than 1/dgt, a thousandth or less, passes for solver error.", "anchors": ["PSDM/psdm/PSDM.py:1440-1470", "PSDM/psdm/PSDM.py:1553-1611"]}
{"id": "C231", "title": "The first influent sample is only a reference", "statement": "Influent and loadings are divided by the values of the first influent sample (1 umol/L where it is zero). The rates in umol/L and umol/g per second of a column in a given state do not depend on that sample. False of the code: the kinetic factor, the share of pore water and the surface diffusivity from the pore to surface ratio depend on it, the latter as the power 1 - 1/n of the first value. It holds for all compounds with exponent 1; for all exponents it holds for the pore concentrations and, up to the factor, for the water.", "quantifier": "all columns, mixtures, states and first samples", "why_tests_cant": "A test has one table; the claim compares all first samples.", "anchors": ["PSDM/psdm/PSDM.py:1375-1377", "PSDM/psdm/PSDM.py:1417", "PSDM/psdm/PSDM.py:1440-1463", "PSDM/psdm/PSDM.py:1553-1611"]}
{"id": "C232", "title": "The order of the ions", "statement": "Listing the ions in another order, the presaturant still first, gives the four ion exchange models the same initial state, time scale and rates in that order, so every ion has the same run.", "quantifier": "all permutations that keep the presaturant first, all columns, batches, states, influents, grids", "why_tests_cant": "All orders of all mixtures.", "anchors": ["IonExchangeModel/ixpy/hsdmix.py:318-320", "IonExchangeModel/ixpy/hsdmix.py:376-384", "IonExchangeModel/ixpy/hsdmix.py:425-535", "IonExchangeModel/ixpy/psdmix.py:222-350", "IonExchangeModel/ixpy/hsdmixbatch.py:200-288", "IonExchangeModel/ixpy/psdmixbatch.py:200-302"]}
{"id": "C233", "title": "Ions that are not there, in a column", "statement": "An ion in the list of which nothing is in the feed, in the water or on the resin stays absent and does not change the rates of the others, the time scale, the start and the runs. False of the code: a divalent ion in the list switches to the other equilibrium formula, which takes the selectivity of the presaturant to be 1. It holds when the list has another divalent ion, when the absent ones are not divalent, and, with only monovalent ions otherwise, for a presaturant of selectivity 1 that is still on the resin.", "quantifier": "all lists of ions and sublists with the presaturant, all columns, states, influents", "why_tests_cant": "A test has one list of ions; the claim compares all lists.", "anchors": ["IonExchangeModel/ixpy/hsdmix.py:425-458", "IonExchangeModel/ixpy/hsdmix.py:467-535", "IonExchangeModel/ixpy/psdmix.py:222-255", "IonExchangeModel/ixpy/psdmix.py:263-350"]}
{"id": "C234", "title": "Ions that are not there, in a batch", "statement": "The same for the batch models. False of the code: for every divalent ion in the list a thousandth of the capacity is loaded with it at the start, taken from the presaturant, whatever its concentration; without that loading diffun has no finite value. It holds for ions that are not divalent, for the start, the rates and the runs.", "quantifier": "all lists of ions and sublists with the presaturant, all batches and states", "why_tests_cant": "The effect is a thousandth of the capacity and passes for solver error.", "anchors": ["IonExchangeModel/ixpy/hsdmixbatch.py:200-204", "IonExchangeModel/ixpy/hsdmixbatch.py:211-239", "IonExchangeModel/ixpy/psdmixbatch.py:200-204", "IonExchangeModel/ixpy/psdmixbatch.py:211-239"]}
{"id": "C235", "title": "Requested times of an ion exchange run", "statement": "A run of the four ion exchange models for which times were requested, increasing and within the span of the run, reports at exactly these times. False of the code: a request of time zero only is taken for no request, and the integrator's own times are reported. It holds for every request with a time that is not zero; other requests are refused with ValueError, and the columns refuse a python list, which the batches take.", "quantifier": "all requests, spans, time units and integrators", "why_tests_cant": "Depends on the truth value of an array of times.", "anchors": ["IonExchangeModel/ixpy/hsdmix.py:397", "IonExchangeModel/ixpy/hsdmix.py:537-551", "IonExchangeModel/ixpy/psdmix.py:194", "IonExchangeModel/ixpy/psdmix.py:353-367", "IonExchangeModel/ixpy/hsdmixbatch.py:295-305", "IonExchangeModel/ixpy/psdmixbatch.py:309-319"]}
{"id": "C236", "title": "An ion entered in parts, in a column", "statement": "If an ion other than the presaturant is entered as several ions with the same constants whose influents add up to its own, then at every time the concentrations and loadings of the parts add up to those of the ion, and the others run as before. The start and the time scale are the same.", "quantifier": "all ways of splitting, both column models, all grids, influents and states at which the equilibrium is defined", "why_tests_cant": "All splits of all mixtures; the formula for the equilibrium is not linear.", "anchors": ["IonExchangeModel/ixpy/hsdmix.py:425-535", "IonExchangeModel/ixpy/psdmix.py:222-350"]}
{"id": "C237", "title": "An ion entered in parts, in a batch", "statement": "The same for the batch models. False of the code: each part of a divalent ion is loaded with a thousandth of the capacity at the start. It holds for the rates, and for whole runs when only monovalent ions are entered in parts.", "quantifier": "all ways of splitting, both batch models, all states", "why_tests_cant": "The effect is a thousandth of the capacity per part and passes for solver error.", "anchors": ["IonExchangeModel/ixpy/hsdmixbatch.py:200-204", "IonExchangeModel/ixpy/hsdmixbatch.py:211-288", "IonExchangeModel/ixpy/psdmixbatch.py:200-204", "IonExchangeModel/ixpy/psdmixbatch.py:211-302"]}
{"id": "C238", "title": "More carbon leaves less in the water", "statement": "Of two exact runs of a powdered carbon contactor the one with the larger dose, or the carbon of larger capacity, ends at the lower concentration, above zero and below the influent. The two film solutions are lower with the larger dose at every time after the start.", "quantifier": "all doses up to the density of water, all carbons, compounds with exponents in (0,1] and grids", "why_tests_cant": "A statement about the end of a run and about all pairs of doses.", "anchors": ["Shiny-PAC/PAC.py:604", "Shiny-PAC/PAC.py:629-640", "Shiny-PAC/PAC.py:713-732", "Shiny-PAC/PAC.py:780-790", "Shiny-PAC/PAC.py:816-897"]}
{"id": "C239", "title": "Compounds on powdered carbon do not compete", "statement": "The derived rows and the rates of a compound, and its exact effluent, are those of a contactor with this compound alone or with any others, in any order.", "quantifier": "all lists of compounds and selections from them, all states and grids", "why_tests_cant": "All mixtures.", "anchors": ["Shiny-PAC/PAC.py:603-627", "Shiny-PAC/PAC.py:816-897"]}
{"id": "C240", "title": "More resin leaves less in a batch", "statement": "Of two batches of the same water with two monovalent ions, the one with more resin, more capacity or the larger selectivity ends at the lower concentration of the ion that is not the presaturant, above zero and below its concentration at the start. The same for more resin or capacity and any number of monovalent ions without selectivity.", "quantifier": "all batches, both models, all grids; exact runs that settle (C220)", "why_tests_cant": "A statement about the end of a run and about all pairs of batches.", "anchors": ["IonExchangeModel/ixpy/hsdmixbatch.py:200-288", "IonExchangeModel/ixpy/psdmixbatch.py:200-302"]}
{"id": "C241", "title": "Blends of two waters on a resin without selectivity", "statement": "If all ions are monovalent (not divalent) with selectivity 1, then with two influents of the same total concentration the start, the time scale and the exact run under a blend of them are the blend of the two starts and runs, so the effluent of the blend is the blend of the effluents.", "quantifier": "both column models, all numbers of ions, grids, time-dependent influents and shares", "why_tests_cant": "All pairs of influents and shares.", "anchors": ["IonExchangeModel/ixpy/hsdmix.py:316-319", "IonExchangeModel/ixpy/hsdmix.py:376-384", "IonExchangeModel/ixpy/hsdmix.py:449-458", "IonExchangeModel/ixpy/hsdmix.py:467-535", "IonExchangeModel/ixpy/psdmix.py:173-181", "IonExchangeModel/ixpy/psdmix.py:263-350"]}
{"id": "C242", "title": "In a batch the ions of the water only get less and the presaturant only gets more", "statement": "Along every exact run of the homogeneous batch model with two monovalent ions, any selectivity and amounts, the second ion falls strictly and the presaturant rises strictly, the loadings of the bead surface stay within the capacity, and the surface stays behind the water in the exchange. The same, in both batch models, for any number of monovalent ions without selectivity.", "quantifier": "all batches, grids, ions and exact runs", "why_tests_cant": "All times of all runs; below the surface loadings do leave the range.", "anchors": ["IonExchangeModel/ixpy/hsdmixbatch.py:200-288", "IonExchangeModel/ixpy/psdmixbatch.py:200-302"]}
{"id": "C243", "title": "The effluent of a powdered carbon contactor only falls", "statement": "If the isotherm is met at the surface only (one radial point, no pores, or equal diffusion coefficients), the effluent of the exact run falls strictly and stays above the equilibrium of the surface. Each concentration between the influent and the one left in the end belongs to exactly one contact time, none belongs to the one left in the end, and the contact time a study reports lies between the same two rows of the table as the exact one.", "quantifier": "all such contactors, compounds, grids, tables and targets", "why_tests_cant": "All times of the exact solution and all tables.", "anchors": ["Shiny-PAC/PAC.py:816-897", "Shiny-PAC/PAC.py:1036-1051", "Shiny-PAC/PAC.py:1102-1117"]}
{"id": "C244", "title": "More or better carbon is ahead at every time", "statement": "Of two powdered carbon contactors as in C243 with the same exponent, the one with no less carbon, capacity, film transfer over radius and surface diffusion over squared radius has no higher share of its influent in the water at any time, and reaches each share no later; with more of one of these it has less, and is sooner, at every time after the start. In particular a larger dose or a smaller particle does this.", "quantifier": "all pairs of contactors, compounds, grids and times", "why_tests_cant": "All pairs of contactors and all times.", "anchors": ["Shiny-PAC/PAC.py:604", "Shiny-PAC/PAC.py:816-897"]}
{"id": "C245", "title": "More or better resin is ahead at every time", "statement": "Of two batches of the same water, on the same grid, as in C242, the one with no less resin per water, film transfer over radius, diffusion over squared radius, capacity and selectivity has no more of an ion (not the presaturant) in the water at any time, and with more of one of these it has less at every time after the start.", "quantifier": "all pairs of batches, ions, grids and times", "why_tests_cant": "All pairs of batches and all times.", "anchors": ["IonExchangeModel/ixpy/hsdmixbatch.py:200-288", "IonExchangeModel/ixpy/psdmixbatch.py:200-302"]}
{"id": "C246", "title": "With a straight isotherm the approach to equilibrium slows down", "statement": "For a compound with exponent one in a powdered carbon contactor as in C243, and for every ion but the presaturant in a batch of monovalent ions without selectivity (both batch models), the excess of the exact run over the concentration of the end is positive, falls, and the share of it that is still there after a further time tau never gets smaller as the run goes on. So at equal steps at least the power of the first share remains, each further halving takes no less time than the one before, and the fall per step gets no larger: extrapolating the first samples promises too much.", "quantifier": "all such contactors and batches, grids, steps and times", "why_tests_cant": "Logarithmic convexity over all times of exact solutions.", "anchors": ["Shiny-PAC/PAC.py:816-897", "IonExchangeModel/ixpy/hsdmixbatch.py:200-288", "IonExchangeModel/ixpy/psdmixbatch.py:200-302"]}
{"id": "C247", "title": "A stronger water is cleaned to a smaller share in a batch", "statement": "If all concentrations of a batch are k > 1 times as large and the vessel is the same, then at every time after the start more than k times as much of each ion (not the presaturant) is in the water: two monovalent ions in the homogeneous model with any selectivity, any number of monovalent ions without selectivity.", "quantifier": "all batches, grids, factors k > 1, ions and times", "why_tests_cant": "All pairs of runs and all times.", "anchors": ["IonExchangeModel/ixpy/hsdmixbatch.py:200-288", "IonExchangeModel/ixpy/psdmixbatch.py:200-302"]}
{"id": "C248", "title": "Without selectivity all ions of a batch follow one curve", "statement": "On the same resin, from two waters of the same total concentration of monovalent ions without selectivity, every ion but the presaturant has the same share of its start in the water and, per unit of its start, the same loading at each bead point, at every time, however the water is composed. Both batch models.", "quantifier": "all batches, waters, ions and times", "why_tests_cant": "All pairs of waters and all times.", "anchors": ["IonExchangeModel/ixpy/hsdmixbatch.py:200-288", "IonExchangeModel/ixpy/psdmixbatch.py:200-302"]}
{"id": "C249", "title": "What the curve of a powdered carbon contactor depends on", "statement": "Two contactors with the same amount of carbon, density times K and exponent, and with film transfer over radius, surface diffusion over squared radius and the pore term over squared radius all theta times as large in the second, have the same run, the second theta times as fast: same share of the influent, same loadings. Size of particles, influent concentration and other compounds have no other influence.", "quantifier": "all pairs of contactors, grids and times", "why_tests_cant": "All pairs of contactors and all times.", "anchors": ["Shiny-PAC/PAC.py:604", "Shiny-PAC/PAC.py:816-897"]}
{"id": "C250", "title": "Case and notation in the tables of a powdered carbon model do not matter", "statement": "Tables that differ only in the case of row names and units, and in whether a number is a number or a text that reads as it, give the same model or the same exception. False of the code for the row format: its name is compared before names are changed to lower case, so Format ends in a ValueError.", "quantifier": "all tables of contactor and carbon, all compounds, all keyword arguments", "why_tests_cant": "All tables and all spellings.", "anchors": ["Shiny-PAC/PAC.py:387-419", "Shiny-PAC/PAC.py:441-566"]}
{"id": "C251", "title": "The order of the rows of a powdered carbon model has no influence", "statement": "Permuting the rows of the contactor table and of the carbon table, whose names are distinct apart from case, gives the same model or the same exception.", "quantifier": "all tables and permutations", "why_tests_cant": "All permutations of all tables.", "anchors": ["Shiny-PAC/PAC.py:387-419", "Shiny-PAC/PAC.py:441-566"]}
{"id": "C252", "title": "Rows with other names have no influence on a powdered carbon model", "statement": "Adding to a table a row whose name is none of those the model knows changes nothing. False of the code when the value is a text: every value but that of format is read as a number first, and a remark ends in a ValueError. True for rows that hold a number, anywhere in either table.", "quantifier": "all tables, rows and places", "why_tests_cant": "All tables and rows.", "anchors": ["Shiny-PAC/PAC.py:391-401"]}
{"id": "C253", "title": "The form of the powdered carbon application arrives as it is, and defaults are as stated", "statement": "The tables PACapp.R makes of its form (where all contactor values are text) are read back as the numbers of the form, with nr radial points and the larger of the two residence times as duration. Without a temperature row 20 degrees C are used, without nr eight points. Asking for another known time unit changes nothing but the factor kept; an unknown one never gives a model.", "quantifier": "all forms whose numbers read back as themselves, compounds, tables", "why_tests_cant": "All forms and tables.", "anchors": ["Shiny-PAC/PAC.py:391-437", "Shiny-PAC/PAC.py:558", "Shiny-PAC/PAC.py:1128-1146"]}
{"id": "C254", "title": "A powdered carbon model is built from the entries of its tables", "statement": "Whenever the construction succeeds, each input (density, porosity, radius, length, aspect ratio, height, volume, flow, residence times, dose, temperature, format) is the one in the row of its name, in any case, as number or text, with its units; it is missing exactly when no row has that name.", "quantifier": "all tables with distinct names", "why_tests_cant": "All tables.", "anchors": ["Shiny-PAC/PAC.py:391-566"]}
{"id": "C255", "title": "Without selectivity a column fed with one water is exhausted", "statement": "In both column models, with all selectivities one and no divalent ions, under a constant influent, every run whose totals are uniform tends to the exhausted column (influent in the water, Q c_i / sum c in the beads) at least as C exp(-w t) with constants of the column alone, for any number of radial nodes and any axial grid of the code (one element with any number of points, or any number of elements of three). From the start of the code there is exactly one run, for all time, and its effluent tends to the influent.", "quantifier": "all columns without selectivity, influents, numbers of nodes, starts with uniform totals, times", "why_tests_cant": "All columns and all numbers of nodes; a limit in time.", "anchors": ["IonExchangeModel/ixpy/hsdmix.py:316-319", "IonExchangeModel/ixpy/hsdmix.py:467-540", "IonExchangeModel/ixpy/psdmix.py:110-118", "IonExchangeModel/ixpy/psdmix.py:263-350", "IonExchangeModel/ixpy/colloc.py:60-151", "IonExchangeModel/ixpy/colloc.py:189-248"]}
{"id": "C256", "title": "The time scale of the code is the mean breakthrough time", "statement": "In units of t_half, the area between influent and effluent over all time is the influent itself for every ion not on the resin at the start, and c_0 minus the total for the presaturant, whatever the rates of film and bead diffusion and the number of nodes.", "quantifier": "all columns without selectivity, constant influents, numbers of nodes", "why_tests_cant": "An integral over all time, for all columns.", "anchors": ["IonExchangeModel/ixpy/hsdmix.py:316-319", "IonExchangeModel/ixpy/psdmix.py:110-118"]}
{"id": "C257", "title": "Without selectivity a column forgets its start", "statement": "Under any continuous influent of one total there is exactly one run from every start with uniform totals, for all time, and two runs approach each other at least as C exp(-w t), with constants of the column and the totals only, whatever the course of the influent.", "quantifier": "all columns without selectivity, influents of constant total, pairs of starts, numbers of nodes, times", "why_tests_cant": "All influents and all pairs of starts; a limit in time.", "anchors": ["IonExchangeModel/ixpy/hsdmix.py:316-319", "IonExchangeModel/ixpy/hsdmix.py:467-540", "IonExchangeModel/ixpy/psdmix.py:110-118", "IonExchangeModel/ixpy/psdmix.py:263-350", "IonExchangeModel/ixpy/colloc.py:60-151"]}
{"id": "C258", "title": "Without selectivity what a pulse brings leaves again, all of it", "statement": "Of two runs from one start whose influents (of one constant total) agree from some time on, the integral over all time of the difference of the effluents is the integral of the difference of the influents, for every ion.", "quantifier": "all columns without selectivity, pairs of influents that agree from some time on, ions, numbers of nodes", "why_tests_cant": "An integral over all time, for all pairs of influents.", "anchors": ["IonExchangeModel/ixpy/hsdmix.py:316-319", "IonExchangeModel/ixpy/hsdmix.py:467-540", "IonExchangeModel/ixpy/psdmix.py:110-118", "IonExchangeModel/ixpy/psdmix.py:263-350", "IonExchangeModel/ixpy/colloc.py:60-151"]}
{"id": "C259", "title": "The water forgets the start and comes out as it went in, one residence time later", "statement": "In both column models, for any ions, valences, selectivities, resin and rates, on both axial grids of the code: the totals in the water of two columns with the same grid and speed of the water, fed with the same total, approach each other at least as C exp(-w (t - t0)) with constants of the grid and the speed only. If the total fed (or what is fed of an ion with kL = 0) follows a polynomial of time the axial points resolve, the total (that ion) at the point x of the bed tends to what was fed x EBED L / v earlier. Fed with a constant total from some time on, the total in the effluent tends to it.", "quantifier": "all columns, pairs of columns, influents, starts, numbers of nodes and elements, times", "why_tests_cant": "A limit in time, for all columns and numbers of nodes; the rates are those of operators of any size.", "anchors": ["IonExchangeModel/ixpy/hsdmix.py:364-370", "IonExchangeModel/ixpy/hsdmix.py:440-530", "IonExchangeModel/ixpy/psdmix.py:300-420", "IonExchangeModel/ixpy/colloc.py:60-151"]}
{"id": "C260", "title": "An almost exhausted carbon column tends to exhaustion", "statement": "For a carbon column (PSDM) with one compound, any Freundlich exponent up to one, a constant influent c > 0 and constant fouling and tortuosity factors, on the grids of the code: there are d, C, w > 0 such that every exact solution that starts with all loadings within e <= d of the loading in equilibrium with c and all water below the inlet within e of c is within C exp(-w t) e of that state at every time t. From every start there is exactly one run, for all time, and it either keeps at least d away from exhaustion for ever or tends to it; if it tends to it, the area between influent and effluent tends to the exhausted content of the column less the content at the start.", "quantifier": "all columns, exponents, influents, starts, numbers of radial and axial nodes, times", "why_tests_cant": "A limit in time for a nonlinear system of any size; the neighbourhood and the rate exist for every column.", "anchors": ["PSDM/psdm/PSDM.py:1533-1615", "PSDM/psdm/PSDM.py:129-140", "PSDM/psdm/PSDM.py:1425-1475"]}
{"id": "C261", "title": "An almost exhausted column with two ions tends to exhaustion", "statement": "In both column models, with a monovalent presaturant and one other ion, monovalent or divalent, of any selectivity, under a constant influent that contains some presaturant, on the grids of the code: exactly one loading is in equilibrium with the influent, and there are d, C, w > 0 such that every exact solution that starts with the totals of the code and within e <= d of the exhausted column (influent in the water below the inlet, that loading in all beads) is within C exp(-w t) e of it at every time t. From every such start there is a run for all time. Every run for all time with these totals either keeps at least d away from exhaustion for ever or tends to it; if it tends to it, the area between influent and effluent tends, ion by ion, to what the exhausted column holds less what was in it at the start.", "quantifier": "all columns with two ions, selectivities, valences one and two, influents, starts near exhaustion, numbers of radial and axial nodes, times", "why_tests_cant": "A limit in time for a nonlinear system of any size; the neighbourhood and the rate exist for every column.", "anchors": ["IonExchangeModel/ixpy/hsdmix.py:316-319", "IonExchangeModel/ixpy/hsdmix.py:425-458", "IonExchangeModel/ixpy/hsdmix.py:467-540", "IonExchangeModel/ixpy/psdmix.py:110-118", "IonExchangeModel/ixpy/psdmix.py:263-350", "IonExchangeModel/ixpy/colloc.py:60-151", "IonExchangeModel/ixpy/colloc.py:189-248"]}
{"id": "C262", "title": "An almost exhausted column with compounds in competition tends to exhaustion", "statement": "In the carbon column with any number of compounds that compete by ideal adsorbed solution theory, of any positive Freundlich exponents, under constant influents, fouling factors and tortuosity factors, on the grids of the code: exactly one set of positive loadings is in equilibrium with the influent. If pore diffusion makes up for the differences between the surface diffusivities of the compounds, there are d, C, w > 0 such that every exact solution that starts within e <= d of the exhausted column (influent in the water below the inlet, those loadings in all beads) is within C exp(-w t) e of it at every time t; from every such start there is a run for all time and exactly one; every run for all time either keeps at least d away from exhaustion for ever or tends to it; if it tends to it, the area between influent and effluent tends, compound by compound, to what the exhausted column holds less what was in it at the start. The condition on diffusion holds for equal surface diffusivities, and for any surface diffusivities small enough beside pore diffusion.", "quantifier": "all numbers of compounds, exponents, influents, diffusivities as stated, starts near exhaustion, numbers of radial and axial nodes, times", "why_tests_cant": "A limit in time for a nonlinear system of any size; the neighbourhood and the rate exist for every column.", "anchors": ["PSDM/psdm/PSDM.py:1438-1518", "PSDM/psdm/PSDM.py:1533-1615", "PSDM/psdm/PSDM.py:1553-1569", "PSDM/psdm/PSDM_functions.py:516-668"]}
{"id": "C263", "title": "People who use a web application at the same time do not disturb one another", "statement": "With several browser windows on one of the three web applications, what a window shows after any sequence of loads of the page, uploads, edits, runs, fits and uses of fitted isotherms in any windows is what it would show had the others done nothing. This is false of all three, since all sessions share the files of temp_file: a page loaded after somebody else's upload shows that person's workbook, also when it is loaded as part of one's own upload. It holds if nobody else writes files; an open page never changes by what others do; after an upload the page shows the workbook if nothing is written before it is loaded; and a new page of the ion-exchange application shows of each sheet the last one anybody uploaded.", "quantifier": "all initial files, workbooks, numbers of windows, and interleavings of their events", "why_tests_cant": "Interleavings of any length of the events of any number of windows.", "anchors": ["Shiny-IEX/Ion_Exchange_Model.R:727-798", "Shiny-IEX/Ion_Exchange_Model.R:1777-1830", "Shiny-IEX/Ion_Exchange_Model.R:2086-2142", "Shiny-GAC/GACapp.R:116-186", "Shiny-GAC/GACapp.R:889-915", "Shiny-GAC/GACapp.R:1180-1195", "Shiny-PAC/PACapp.R:115-161", "Shiny-PAC/PACapp.R:522-543"]}
{"id": "C264", "title": "An almost exhausted ion exchange column with many ions of like mobility tends to exhaustion", "statement": "Take HSDMIX or PSDMIX with any number of monovalent and divalent ions of one diffusivity, one pore diffusivity not below it and one film coefficient, any selectivities, a monovalent presaturant, and a constant influent that contains all of them. There is exactly one set of loadings of the given capacity in equilibrium with the influent. Every run that starts near the exhausted column with the totals of solve tends to it exponentially, from every such start there is exactly one run for all time, a run that ever comes near tends to it, and the areas between influent and effluent then tend to what the exhausted column holds less what was in it at the start, ion by ion.", "quantifier": "all such columns, influents, numbers of ions, radial and axial nodes, and starts near exhaustion", "why_tests_cant": "Limits of runs over unbounded time, any number of ions and collocation nodes, real-valued inputs.", "anchors": ["IonExchangeModel/ixpy/hsdmix.py:467-530", "IonExchangeModel/ixpy/psdmix.py:263-346"]}
{"id": "C265", "title": "An almost exhausted ion exchange column with ions of different mobilities tends to exhaustion", "statement": "Take HSDMIX or PSDMIX with any number of monovalent and divalent ions, any selectivities, a monovalent presaturant and a constant influent that contains all of them. The ions may have different film coefficients, surface and pore diffusivities, as long as these do not differ too much for the share that the presaturant has of the equivalents in water and in exhausted resin: with others w and presaturant w0, mobilities within a factor rho^2 of one another are allowed if (rho - 1)^2 * sum w < 4 * rho * w0. Every run that starts near the exhausted column with the totals of solve tends to it exponentially, from every such start there is exactly one run for all time, and a run that ever comes near tends to it. Two ions, ions of like mobility and traces beside the presaturant always meet the condition.", "quantifier": "all such columns, influents, mobilities, numbers of ions, radial and axial nodes, and starts near exhaustion", "why_tests_cant": "Limits of runs over unbounded time, any number of ions and collocation nodes, real-valued inputs.", "anchors": ["IonExchangeModel/ixpy/hsdmix.py:467-530", "IonExchangeModel/ixpy/psdmix.py:263-346"]}
{"id": "C266", "title": "The two graphs of the ion exchange application draw every computed, measured and influent point of their ions", "statement": "With all three boxes ticked the first graph of the web application draws exactly the computed curves, measured effluents and influents of chloride, sulfate, nitrate and bicarbonate, and the second exactly those of all other ions. A box that is not ticked takes its points from both graphs and changes nothing else.", "quantifier": "all lists of ions in any order, influent tables with the same ions in any order, any numbers of times, all measured tables, all boxes", "why_tests_cant": "Depends on the order of the ion list and on names; the example lists counter-ions first. Points that are not drawn raise no error.", "anchors": ["Shiny-IEX/Ion_Exchange_Model.R:809-847", "Shiny-IEX/Ion_Exchange_Model.R:2311-2326", "Shiny-IEX/Ion_Exchange_Model.R:2398-2503"]}
{"id": "C267", "title": "Without selectivity a column answers to its influent with bounded gain and settles when the influent does", "statement": "In both column models, with all selectivities one and no divalent ions, two runs under influents of one constant total that never differ by more than d approach each other as C exp(-w t) up to K d, with constants C, K, w of the column and the totals alone. If the influent tends to some water, whatever its course before, the effluent tends to that water and every bead to the loading in equilibrium with it.", "quantifier": "all columns without selectivity, pairs of influents of one constant total, starts with uniform totals, numbers of nodes, times", "why_tests_cant": "All pairs of influents and all times; the gain must not depend on them.", "anchors": ["IonExchangeModel/ixpy/hsdmix.py:316-319", "IonExchangeModel/ixpy/hsdmix.py:394-410", "IonExchangeModel/ixpy/hsdmix.py:467-540", "IonExchangeModel/ixpy/psdmix.py:110-118", "IonExchangeModel/ixpy/psdmix.py:263-350", "IonExchangeModel/ixpy/colloc.py:60-151", "IonExchangeModel/ixpy/colloc.py:189-248"]}
{"id": "C268", "title": "Columns in series hold up the sum of their time scales", "statement": "Without selectivity, of an influent of one total that settles at c a fresh column holds back in the end t_half times c_i of every ion i not on the fresh resin, and t_half times (c_0 minus the total) of the presaturant, whatever the course of the influent. Any number of fresh columns in series, each fed with the effluent of the one before and each with its own model, size, resin and grids: the effluents tend to the influent, and the area between the influent of the first and the effluent of the last is the sum of the t_half of all times c_i. Such runs exist for every continuous influent of one total.", "quantifier": "all columns without selectivity, any number of them in series, influents of constant total that settle, ions, numbers of nodes", "why_tests_cant": "Any number of columns; integrals over all time.", "anchors": ["IonExchangeModel/ixpy/hsdmix.py:316-319", "IonExchangeModel/ixpy/hsdmix.py:376-386", "IonExchangeModel/ixpy/hsdmix.py:394-410", "IonExchangeModel/ixpy/hsdmix.py:467-540", "IonExchangeModel/ixpy/psdmix.py:110-118", "IonExchangeModel/ixpy/psdmix.py:263-350", "IonExchangeModel/ixpy/colloc.py:60-151", "IonExchangeModel/ixpy/colloc.py:189-248"]}
{"id": "C269", "title": "An influent that changes at a steady rate comes out one time scale later", "statement": "Without selectivity, under an influent c + t b of constant total there is a run whose effluent is at all times exactly the influent t_half earlier, whatever the rates of film and bead diffusion and the numbers of nodes, and every run from uniform totals approaches it as C exp(-w t) with constants of the column and the totals alone.", "quantifier": "all columns without selectivity, steadily changing influents of constant total, starts with uniform totals, numbers of nodes, times", "why_tests_cant": "All columns and rates; the delay is exact and does not depend on the kinetics.", "anchors": ["IonExchangeModel/ixpy/hsdmix.py:316-319", "IonExchangeModel/ixpy/hsdmix.py:394-410", "IonExchangeModel/ixpy/hsdmix.py:467-540", "IonExchangeModel/ixpy/psdmix.py:110-118", "IonExchangeModel/ixpy/psdmix.py:263-350", "IonExchangeModel/ixpy/colloc.py:60-151", "IonExchangeModel/ixpy/colloc.py:189-248"]}
{"id": "C270", "title": "Fed with a water that recurs a column falls into step with it", "statement": "Without selectivity, under a continuous influent of one total that recurs with some period there is a run that recurs with the same period. It is the only one, every run from uniform totals tends to it, and over a period as much of every ion leaves the column in step as is fed.", "quantifier": "all columns without selectivity, periodic influents of constant total, periods, starts with uniform totals, numbers of nodes", "why_tests_cant": "All influents and periods; a limit in time.", "anchors": ["IonExchangeModel/ixpy/hsdmix.py:316-319", "IonExchangeModel/ixpy/hsdmix.py:394-410", "IonExchangeModel/ixpy/hsdmix.py:467-540", "IonExchangeModel/ixpy/psdmix.py:110-118", "IonExchangeModel/ixpy/psdmix.py:263-350", "IonExchangeModel/ixpy/colloc.py:60-151", "IonExchangeModel/ixpy/colloc.py:189-248"]}
{"id": "C271", "title": "The numbers entered in the fields of the web applications are the numbers of the run", "statement": "A number typed into a field, or uploaded, is the number the run uses; a column that is saved and uploaded again runs as before, whether it is given by a velocity or by a flow rate.", "quantifier": "all three web applications, all fields, numbers and units, all forms", "why_tests_cant": "All numbers of all fields; the widgets round to a fixed number of decimals whatever the unit, and the velocity computed from a flow rate is never representable.", "anchors": ["Shiny-IEX/Ion_Exchange_Model.R:1397-1442", "Shiny-IEX/Ion_Exchange_Model.R:1461-1493", "Shiny-IEX/Ion_Exchange_Model.R:1830-1921", "Shiny-IEX/Ion_Exchange_Model.R:1974-1983", "Shiny-IEX/Ion_Exchange_Model.R:2519-2529", "Shiny-GAC/GACapp.R:659-793", "Shiny-PAC/PACapp.R:297-433"]}
{"id": "C272", "title": "An almost exhausted carbon column follows a wavering influent with a bounded gain", "statement": "For a carbon column (PSDM) with one compound, any Freundlich exponent up to one, constant fouling and tortuosity factors, on the grids of the code, and a concentration c > 0: there are d, C, w > 0 such that, while the influent stays within b of c and the start is within e of the column exhausted by c (b, e <= d), every exact solution is within C (exp(-w t) e + b) of that exhausted column at every time t, in all waters below the inlet and all loadings. If in addition the influent tends to c, the column tends to exhaustion. A run under any influent that tends to c either keeps at least d away from exhaustion from some time on or tends to it. Under every continuous influent there is exactly one run for all time from every state.", "quantifier": "all columns, exponents, influents varying in time, starts, numbers of radial and axial nodes, times", "why_tests_cant": "Every function of time as influent; bounds for all times, and a limit, for a nonlinear system of any size.", "anchors": ["PSDM/psdm/PSDM.py:1533-1615", "PSDM/psdm/PSDM.py:129-140", "PSDM/psdm/PSDM.py:1425-1475"]}
{"id": "C273", "title": "Almost exhausted carbon columns with competing compounds follow a wavering influent with a bounded gain", "statement": "For a carbon column (PSDM) with any number of competing compounds in the setting of C262, with constant fouling and tortuosity factors, on the grids of the code, and concentrations c > 0: there are d, C, w > 0 such that, while the influent of every compound stays within b of c and the start is within e of the column exhausted by c (b, e <= d), every exact solution is within C (exp(-w t) e + b) of that exhausted column at every time t, in all waters below the inlet and all loadings of all compounds. If in addition the influent tends to c, the column tends to exhaustion. A run under any influent that tends to c either keeps at least d away from exhaustion from some time on or tends to it. Under every continuous influent that stays within d of c there is exactly one run for all time from every state within d of exhaustion.", "quantifier": "all columns, numbers of compounds, exponents, influents varying in time, starts, numbers of radial and axial nodes, times", "why_tests_cant": "Every function of time as influent; bounds for all times, and a limit, for a nonlinear coupled system of any size.", "anchors": ["PSDM/psdm/PSDM.py:1533-1615", "PSDM/psdm/PSDM.py:129-140", "PSDM/psdm/PSDM.py:1425-1475"]}
{"id": "C274", "title": "Almost exhausted ion exchange columns follow a wavering influent with a bounded gain", "statement": "For an ion exchange column (HSDM or PSDM) with any number of ions of mild mobilities as in C265, any selectivities, on the grids of the code, and an influent cin > 0: there are d, C, w > 0 such that, while the influent keeps the total of cin and every ion stays within b of cin, and the start has the totals of solve and is within e of the column exhausted by cin (b, e <= d), every exact solution is within C (exp(-w t) e + b) of that exhausted column at every time t, in all waters below the inlet and all loadings of all ions. If in addition the influent tends to cin, the column tends to exhaustion. A run with these totals under any influent of this total that tends to cin either keeps at least d away from exhaustion from some time on or tends to it. Under every continuous influent of this total that stays within d of cin there is exactly one run for all time from every such state within d of exhaustion.", "quantifier": "all columns, numbers of ions, selectivities, influents of constant total varying in time, starts, numbers of radial and axial nodes, times", "why_tests_cant": "Every function of time as influent; bounds for all times, and a limit, for a nonlinear coupled system of any size.", "anchors": ["IonExchangeModel/ixpy/hsdmix.py:316-319", "IonExchangeModel/ixpy/hsdmix.py:425-458", "IonExchangeModel/ixpy/hsdmix.py:467-540", "IonExchangeModel/ixpy/psdmix.py:110-118", "IonExchangeModel/ixpy/psdmix.py:263-350", "IonExchangeModel/ixpy/colloc.py:60-151", "IonExchangeModel/ixpy/colloc.py:189-248"]}
{"id": "C275", "title": "Almost exhausted carbon columns with competing compounds forget their starts and fall into step with recurring influents", "statement": "For a carbon column (PSDM) with any number of competing compounds in the setting of C262 and concentrations c > 0 there are d, C, w > 0 such that two runs that start within d of the column exhausted by c and within e of each other, under influents within d of c that stay within g of each other, are within C (exp(-w t) e + g) of each other at every time t, in all waters below the inlet and all loadings. There is a bound b0 > 0 such that, under every continuous influent that recurs with some period and stays within b <= b0 of c, there is a run that recurs with the same period and stays within C b of exhaustion; every run that starts within d of exhaustion comes to it exponentially, and it is the only recurring run that starts there.", "quantifier": "all columns, numbers of compounds, exponents, influents varying in time, periods, starts, numbers of radial and axial nodes, times", "why_tests_cant": "Every function of time as influent, every pair of starts; existence of a recurring solution of a nonlinear coupled system of any size.", "anchors": ["PSDM/psdm/PSDM.py:1533-1615", "PSDM/psdm/PSDM.py:129-140", "PSDM/psdm/PSDM.py:1425-1475"]}
{"id": "C276", "title": "Almost exhausted ion exchange columns forget their starts and fall into step with recurring influents", "statement": "For an ion exchange column (HSDM or PSDM) with any number of ions of mild mobilities as in C265, any selectivities, and an influent cin > 0 there are d, C, w > 0 such that two runs with the totals of solve that start within d of the column exhausted by cin and within e of each other, under influents of the total of cin within d of cin that stay within g of each other, are within C (exp(-w t) e + g) of each other at every time t, in all waters below the inlet and all loadings. There is a bound b0 > 0 such that, under every continuous influent of this total that recurs with some period and stays within b <= b0 of cin, there is a run with these totals that recurs with the same period and stays within C b of exhaustion; every run with these totals that starts within d of exhaustion comes to it exponentially, and it is the only recurring run that starts there.", "quantifier": "all columns, numbers of ions, selectivities, influents of constant total varying in time, periods, starts, numbers of radial and axial nodes, times", "why_tests_cant": "Every function of time as influent, every pair of starts; existence of a recurring solution of a nonlinear coupled system of any size.", "anchors": ["IonExchangeModel/ixpy/hsdmix.py:316-319", "IonExchangeModel/ixpy/hsdmix.py:425-458", "IonExchangeModel/ixpy/hsdmix.py:467-540", "IonExchangeModel/ixpy/psdmix.py:110-118", "IonExchangeModel/ixpy/psdmix.py:263-350", "IonExchangeModel/ixpy/colloc.py:60-151", "IonExchangeModel/ixpy/colloc.py:189-248"]}
{"id": "C277", "title": "In the long run a column passes on what it is fed", "statement": "For every run of an ion exchange column (HSDM or PSDM, any ions, valences and selectivities) or a carbon column (PSDM, any compounds, with any fouling and tortuosity in time), on the grids of the code with at least two axial points: if between two times no water below the inlet and no loading of ion i differs by more than d, what left and what entered of ion i between them differ by at most d (L/v) / timeback in the ion exchange models, and for waters within d and loadings within e by at most (d + dg e) / dg1 in the carbon model. So over a time after which the column is as before what left is what entered; if all of an ion or compound in the column stays bounded for ever, the mean effluent tends to whatever the mean influent tends to; and for columns near exhaustion as in C273 and C274, what left and what entered never differ by more than C (e + b), where e is the distance of the start from exhaustion and b that of the influent from cin.", "quantifier": "all columns, influents in time, runs, pairs of times, fouling and tortuosity in time, numbers of ions or compounds and of nodes", "why_tests_cant": "All influents, runs and times, up to infinity; a simulation has one influent and ends.", "anchors": ["IonExchangeModel/ixpy/hsdmix.py:425-458", "IonExchangeModel/ixpy/hsdmix.py:467-540", "IonExchangeModel/ixpy/psdmix.py:263-350", "PSDM/psdm/PSDM.py:1533-1615", "PSDM/psdm/PSDM_functions.py:516-668", "IonExchangeModel/ixpy/colloc.py:60-151", "IonExchangeModel/ixpy/colloc.py:189-248"]}
{"id": "C278", "title": "Almost exhausted carbon columns with competing compounds follow slow changes of the influent", "statement": "For a carbon column (PSDM) with any number of competing compounds in the setting of C262 and concentrations c > 0 there are d, C, w > 0 and, for each water s within d of c, a column v(s) that stands still under s with all its water equal to s, within C b of the column exhausted by c if s is within b of c. A run that starts within d of exhaustion by c, under influents s(t) within d of c that change by at most k per unit of time, is at every time t within C (exp(-w t) e + k) of v(s(t)) in all waters and loadings, where e is its distance from v(s(0)) at the start. So its effluent is within C (exp(-w t) (e + b) + k) of the influent of the same moment, where e and b are the distances of column and influent from c at the start.", "quantifier": "all columns, numbers of compounds, exponents, influents varying in time, rates of change, starts, numbers of radial and axial nodes, times", "why_tests_cant": "Every function of time as influent and every start; existence of the states of rest of a nonlinear coupled system of any size.", "anchors": ["PSDM/psdm/PSDM.py:1533-1615", "PSDM/psdm/PSDM.py:129-140", "PSDM/psdm/PSDM.py:1425-1475"]}
{"id": "C279", "title": "Almost exhausted ion exchange columns follow slow changes of the influent", "statement": "For an ion exchange column (HSDM or PSDM) with any number of ions of mild mobilities as in C265, any selectivities, and an influent cin > 0 there are d, C, w > 0 and, for each water s within d of cin of the same total, a column v(s) with the totals of solve that stands still under s with all its water equal to s, within C b of the column exhausted by cin if s is within b of cin. A run with these totals that starts within d of exhaustion by cin, under influents s(t) of this total within d of cin that change by at most k per unit of time, is at every time t within C (exp(-w t) e + k) of v(s(t)) in all waters and loadings, where e is its distance from v(s(0)) at the start. So its effluent is within C (exp(-w t) (e + b) + k) of the influent of the same moment, where e and b are the distances of column and influent from cin at the start.", "quantifier": "all columns, numbers of ions, selectivities, influents of constant total varying in time, rates of change, starts, numbers of radial and axial nodes, times", "why_tests_cant": "Every function of time as influent and every start; existence of the states of rest of a nonlinear coupled system of any size.", "anchors": ["IonExchangeModel/ixpy/hsdmix.py:316-319", "IonExchangeModel/ixpy/hsdmix.py:425-458", "IonExchangeModel/ixpy/hsdmix.py:467-540", "IonExchangeModel/ixpy/psdmix.py:110-118", "IonExchangeModel/ixpy/psdmix.py:263-350", "IonExchangeModel/ixpy/colloc.py:60-151", "IonExchangeModel/ixpy/colloc.py:189-248"]}
{"id": "C280", "title": "Without selectivity a column does not amplify what wavers in its influent", "statement": "For an ion exchange column (HSDM or PSDM) without selectivity as in C257, with the one-element axial grid that is the default, there is K > 0 such that for every two influents of the same total, continuous in time, and two runs with the totals of solve: for each ion but the first, the integral over [0, T] of the square of the difference of the effluents is at most that of the square of the difference of the influents plus K e^2, where e is the distance of the two columns at the start. K depends on the column and totals alone, not on T or the influents. So over every time an effluent of a column exhausted by a water c differs in the mean square from c by no more than its influent did.", "quantifier": "all columns, pairs of influents varying in time, pairs of starts, numbers of ions, of radial and of axial nodes, lengths of time", "why_tests_cant": "Every function of time as influent, and every length of run; a simulation has one influent and ends.", "anchors": ["IonExchangeModel/ixpy/hsdmix.py:364-370", "IonExchangeModel/ixpy/hsdmix.py:425-458", "IonExchangeModel/ixpy/hsdmix.py:467-540", "IonExchangeModel/ixpy/psdmix.py:263-350", "IonExchangeModel/ixpy/colloc.py:60-151", "IonExchangeModel/ixpy/colloc.py:189-248"]}
{"id": "C281", "title": "Lead and lag vessels that change places settle into one pattern", "statement": "For vessels without selectivity as in C280 and any interval S > 0 between swaps: each vessel starts from u0, is fed for S with the effluent of the vessel before it after its swap, and then for S with the raw water, as the passes of run_LL_ix. Then there is a pattern that repeats, a vessel fed before the swap with what it gives off after it. There are C > 0 and s < 1, of the column, the totals and S alone, such that whatever the first vessel is fed with before its swap, vessel i is at all times before and after its swap within C s^i d of the repeating one in all waters and loadings, where d is how far the feed of the first is from that of the repeating one; and no other pattern of the same total repeats. In the mean square, one pass makes the difference of two feeds smaller by a factor below one for each ion but the first.", "quantifier": "all columns, intervals, raw waters varying in time, first feeds, starts, numbers of passes, numbers of ions, of radial and of axial nodes", "why_tests_cant": "Every function of time as feed and any number of passes; existence of a function of time that reproduces itself through a swap cannot be run.", "anchors": ["PSDM/psdm/lead_lag_class.py:512-609", "IonExchangeModel/ixpy/hsdmix.py:364-370", "IonExchangeModel/ixpy/hsdmix.py:425-458", "IonExchangeModel/ixpy/hsdmix.py:467-540", "IonExchangeModel/ixpy/psdmix.py:263-350", "IonExchangeModel/ixpy/colloc.py:60-151", "IonExchangeModel/ixpy/colloc.py:189-248"]}
{"id": "C282", "title": "Swapped vessels settle also when effluents are handed on as samples", "statement": "For vessels as in C281 that are handed on N samples at equal distances and straight lines between them instead of the whole effluent of the vessel before: there are N0, C > 0 and s < 1, of the column, the totals and the interval alone, such that for every N from N0 on two series of passes are after i passes within C s^i d of each other at all times before and after the swap in all waters and loadings, where d is the difference of what the first vessels are fed; and within C (s^i d + w) of the repeating pattern of C281, where w is how much its effluent changes between two samples. So with enough samples and enough passes they come as near to the repeating pattern as one likes.", "quantifier": "all columns, intervals, raw waters varying in time, first feeds, starts, numbers of samples from N0 on, numbers of passes, numbers of ions, of radial and of axial nodes", "why_tests_cant": "Any number of samples and passes, and distance to a pattern that no run computes.", "anchors": ["PSDM/psdm/lead_lag_class.py:512-609", "IonExchangeModel/ixpy/hsdmix.py:364-370", "IonExchangeModel/ixpy/hsdmix.py:425-458", "IonExchangeModel/ixpy/hsdmix.py:467-540", "IonExchangeModel/ixpy/psdmix.py:263-350"]}
{"id": "C283", "title": "A carbon column with a linear isotherm does not amplify, and carbon vessels that change places settle", "statement": "For a carbon column with one compound and 1/n = 1 on the grids of the code with one axial element, with constant fouling and tortuosity, and runs in which no bead below the inlet is loaded below zero: the square of the difference of two effluents, added up to any time, is at most that of the influents plus a multiple of the square of the difference at the start; under one influent two runs come together exponentially. For vessels that start alike, are fed with the effluent of the one before until the swap and then with raw water, the pass from feed to effluent is a contraction in the mean square by a factor of the column and the interval alone; two series of passes are after i passes within C s^i d of each other at all times, in all waters and loadings, d being the difference of what the first vessels are fed and s < 1; each series settles to fixed courses of a lag and a lead vessel at that rate. There are such series around every exhausted column, for every first feed near its water.", "quantifier": "all columns with a linear isotherm, influents and raw waters varying in time, first feeds, starts, intervals, numbers of passes, of radial and of axial nodes", "why_tests_cant": "Energies over all times, and contraction over any number of passes of solutions of differential equations with a free number of nodes.", "anchors": ["PSDM/psdm/lead_lag_class.py:393-509", "PSDM/psdm/PSDM.py:1533-1615", "PSDM/psdm/PSDM.py:129-140", "PSDM/psdm/PSDM.py:1425-1475"]}
{"id": "C284", "title": "Porous beads with one diffusivity are homogeneous beads", "statement": "In every state and for every influent the right-hand side of PSDMIX is that of HSDMIX when the bead porosity is 0. When pores and resin have the same diffusivity for each ion, it is for every porosity other than 1 the right-hand side of HSDMIX with the selectivity of each divalent ion divided by the solid fraction of the bead, so that runs of the one are runs of the other; with monovalent ions only nothing is changed at all, and the porosity has no influence on the result. The same holds of the batch models wherever the pore model has rates, and with monovalent ions only in every state, and of the two derivative functions of the web application.", "quantifier": "all porosities, diffusivities, selectivities, valences, grids, influents, states and times", "why_tests_cant": "Equality of the rates of two models in every state; a test compares two breakthrough curves of one column within a tolerance.", "anchors": ["IonExchangeModel/ixpy/psdmix.py:263-346", "IonExchangeModel/ixpy/hsdmix.py:467-530", "IonExchangeModel/ixpy/psdmixbatch.py:247-302", "IonExchangeModel/ixpy/hsdmixbatch.py:247-288", "Shiny-IEX/Ion_Exchange_Model.R:380-466", "Shiny-IEX/Ion_Exchange_Model.R:574-680"]}
{"id": "C285", "title": "A carbon column has rates for any diffusivities", "statement": "For every column and compounds with sensible properties and positive film, pore and surface coefficients, supplied or by correlation, the right-hand side that run_psdm integrates consists of numbers, in every state and for every influent, fouling and tortuosity.", "quantifier": "all columns, compounds, coefficients, tortuosities, influents, fouling factors, grids and states", "why_tests_cant": "The singular coefficients form a surface in the space of inputs that no sample hits by chance; on it the run returns nan.", "anchors": ["PSDM/psdm/PSDM.py:1517-1518", "PSDM/psdm/PSDM.py:1417-1438", "PSDM/psdm/PSDM.py:1455-1459", "PSDM/psdm/PSDM.py:1550-1599"]}
{"id": "C286", "title": "The equilibrium passes through a resin without presaturant", "statement": "For every resin with a monovalent presaturant and a loaded divalent ion, as the loading of the presaturant passes through zero the equilibrium of the ion exchange models tends to one water whose concentrations are not negative and sum to the total of the water.", "quantifier": "all ion counts, selectivities, valences in {1,2}, loadings of the other ions and totals; loadings of the presaturant on both sides of zero", "why_tests_cant": "It is about a limit at a singular point; a run reaches it only up to the error of the solver, on either side.", "anchors": ["IonExchangeModel/ixpy/hsdmix.py:425-446", "IonExchangeModel/ixpy/psdmix.py:222-243", "IonExchangeModel/ixpy/hsdmixbatch.py:211-224", "IonExchangeModel/ixpy/psdmixbatch.py: calc_Ceq_dv", "Shiny-IEX/Ion_Exchange_Model.R:408-421", "Shiny-IEX/Ion_Exchange_Model.R:608-622"]}
{"id": "C287", "title": "What a carbon run tells about pore and surface diffusion", "statement": "For compounds with exponent 1/n = 1 and a capacity that is not fouled, two sets of supplied diffusivities give run_psdm the same rates in all states without negative loadings, and so the same run, exactly when for each compound the surface diffusivity times the surface capacity plus the pore diffusivity times the pore capacity over the tortuosity agree; for a compound alone with any other exponent equal rates mean equal diffusivities.", "quantifier": "all columns, compounds, diffusivities that differ, tortuosities, influents, grids, states without negative loadings and runs", "why_tests_cant": "A fit to measured breakthrough cannot show that other parameters would fit as well; that needs all pairs of diffusivities and all states.", "anchors": ["PSDM/psdm/PSDM.py:1420-1459", "PSDM/psdm/PSDM.py:1517-1518", "PSDM/psdm/PSDM.py:1550-1599"]}
