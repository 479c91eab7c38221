{
 "claims": [
  {
   "property": "C01",
   "status": "proved",
   "theorems": [
    "Stochopy.Props.C01_cmaes",
    "Stochopy.Props.C01_vdcma",
    "Stochopy.C01_de",
    "Stochopy.C01_cpso",
    "Stochopy.C01_pso",
    "Stochopy.C01_na"
   ],
   "note": ""
  },
  {
   "property": "C02",
   "status": "proved",
   "theorems": [
    "Stochopy.C02_de",
    "Stochopy.C02_cpso",
    "Stochopy.C02_pso",
    "Stochopy.C02_na"
   ],
   "note": ""
  },
  {
   "property": "C03",
   "status": "proved",
   "theorems": [
    "Stochopy.C03_de",
    "Stochopy.C03_cpso",
    "Stochopy.C03_pso",
    "Stochopy.C03_na"
   ],
   "note": ""
  },
  {
   "property": "C04",
   "status": "proved",
   "theorems": [
    "Stochopy.Props.C04_cmaes",
    "Stochopy.Props.C04_vdcma",
    "Stochopy.C04_de",
    "Stochopy.C04_cpso",
    "Stochopy.C04_pso",
    "Stochopy.C04_na"
   ],
   "note": ""
  },
  {
   "property": "C05",
   "status": "proved",
   "theorems": [
    "Stochopy.Props.C05_cmaes",
    "Stochopy.Props.C05_vdcma",
    "Stochopy.Props.C05_cmaes_terminates",
    "Stochopy.Props.C05_vdcma_terminates",
    "Stochopy.C05_de_terminates",
    "Stochopy.C05_cpso_terminates",
    "Stochopy.C05_pso_terminates",
    "Stochopy.C05_na_terminates",
    "Stochopy.C05_de",
    "Stochopy.C05_cpso",
    "Stochopy.C05_pso",
    "Stochopy.C05_na"
   ],
   "note": ""
  },
  {
   "property": "C06",
   "status": "proved",
   "theorems": [
    "Stochopy.C06_de",
    "Stochopy.C06_cpso",
    "Stochopy.C06_pso",
    "Stochopy.C06_na"
   ],
   "note": ""
  },
  {
   "property": "C07",
   "status": "partial",
   "theorems": [
    "Stochopy.C07_de_partial",
    "Stochopy.C07_cpso_partial",
    "Stochopy.C07_pso_partial",
    "Stochopy.C07_de_violated",
    "Stochopy.C07_cpso_violated"
   ],
   "note": "False with immediate updating (witnesses C07_*_violated); what is left is proved."
  },
  {
   "property": "C08",
   "status": "proved",
   "theorems": [
    "Stochopy.Props.C08_cmaes",
    "Stochopy.Props.C08_vdcma",
    "Stochopy.C08_de",
    "Stochopy.C08_cpso",
    "Stochopy.C08_pso",
    "Stochopy.C08_na"
   ],
   "note": ""
  },
  {
   "property": "C09",
   "status": "proved",
   "theorems": [
    "Stochopy.Props.C09_cmaes",
    "Stochopy.Props.C09_vdcma",
    "Stochopy.C09_de",
    "Stochopy.C09_cpso",
    "Stochopy.C09_pso",
    "Stochopy.C09_na"
   ],
   "note": ""
  },
  {
   "property": "C10",
   "status": "proved",
   "theorems": [
    "Stochopy.Props.C10_cmaes",
    "Stochopy.Props.C10_vdcma",
    "Stochopy.C10_de",
    "Stochopy.C10_cpso",
    "Stochopy.C10_pso",
    "Stochopy.C10_na",
    "Stochopy.C10_de_verbosity",
    "Stochopy.C10_na_verbosity",
    "Stochopy.C10_cpso_verbosity",
    "Stochopy.C10_pso_verbosity"
   ],
   "note": ""
  },
  {
   "property": "C11",
   "status": "proved",
   "theorems": [
    "Stochopy.Props.C11_cmaes",
    "Stochopy.Props.C11_vdcma",
    "Stochopy.C11_cpso",
    "Stochopy.C11_pso"
   ],
   "note": "pso, cpso; cmaes and vdcma without constraints."
  },
  {
   "property": "C12",
   "status": "partial",
   "theorems": [
    "Stochopy.C12_de_violated",
    "Stochopy.C12_de_partial"
   ],
   "note": "False for de: funall holds the values of rejected trial vectors (C12_de_violated)."
  },
  {
   "property": "C13",
   "status": "partial",
   "theorems": [
    "Stochopy.C13_na_violated",
    "Stochopy.C13_na_partial"
   ],
   "note": "False for na: xall[0] is stored in normalised coordinates (C13_na_violated)."
  },
  {
   "property": "C14",
   "status": "partial",
   "theorems": [
    "Stochopy.Props.C14_cmaes",
    "Stochopy.Props.C14_vdcma",
    "Stochopy.C14_de_violated",
    "Stochopy.C14_cpso_violated",
    "Stochopy.C14_pso_violated",
    "Stochopy.C14_na_violated"
   ],
   "note": "False for de/pso/cpso/na on every input (two generations, no history); true for cmaes and vdcma."
  },
  {
   "property": "C15",
   "status": "proved",
   "theorems": [
    "Stochopy.C15_de"
   ],
   "note": ""
  },
  {
   "property": "C16",
   "status": "proved",
   "theorems": [
    "Stochopy.C16_cpso",
    "Stochopy.C16_pso"
   ],
   "note": ""
  },
  {
   "property": "C17",
   "status": "proved",
   "theorems": [
    "Stochopy.C17_shrink",
    "Stochopy.C17_none"
   ],
   "note": ""
  },
  {
   "property": "C18",
   "status": "proved",
   "theorems": [
    "Stochopy.C18_de",
    "Stochopy.C18_cpso",
    "Stochopy.C18_pso",
    "Stochopy.C18_na"
   ],
   "note": ""
  },
  {
   "property": "C19",
   "status": "partial",
   "theorems": [
    "Stochopy.C19_violated",
    "Stochopy.C19_de_violated",
    "Stochopy.C19_partial"
   ],
   "note": "False: LHS jitter covers only the lower half of each slice (C19_violated, C19_de_violated); every choice in the lower halves is drawable (C19_partial)."
  },
  {
   "property": "C20",
   "status": "proved",
   "theorems": [
    "Stochopy.C20_de",
    "Stochopy.C20_de_size"
   ],
   "note": ""
  },
  {
   "property": "C21",
   "status": "proved",
   "theorems": [
    "Stochopy.C21_de"
   ],
   "note": ""
  },
  {
   "property": "C22",
   "status": "proved",
   "theorems": [
    "Stochopy.C22_de",
    "Stochopy.C22_pso"
   ],
   "note": ""
  },
  {
   "property": "C23",
   "status": "proved",
   "theorems": [
    "Stochopy.Props.C23_cmaes",
    "Stochopy.Props.C23_vdcma",
    "Stochopy.C23_de",
    "Stochopy.C23_na",
    "Stochopy.C23_cpso",
    "Stochopy.C23_pso"
   ],
   "note": ""
  },
  {
   "property": "C24",
   "status": "proved",
   "theorems": [
    "Stochopy.C24_mpi",
    "Stochopy.C24_total"
   ],
   "note": ""
  },
  {
   "property": "C25",
   "status": "partial",
   "theorems": [
    "Stochopy.C25_de_violated",
    "Stochopy.C25_na_violated",
    "Stochopy.C25_cpso_violated",
    "Stochopy.C25_violated"
   ],
   "note": "False: an unknown backend name is silently accepted (witness C25_violated; C25_*_violated for every unknown name)."
  },
  {
   "property": "C26",
   "status": "proved",
   "theorems": [
    "Stochopy.C26_cpso"
   ],
   "note": ""
  },
  {
   "property": "C27",
   "status": "proved",
   "theorems": [
    "Stochopy.C27_pso",
    "Stochopy.C27_zero"
   ],
   "note": ""
  },
  {
   "property": "C28",
   "status": "proved",
   "theorems": [
    "Stochopy.C28_na",
    "Stochopy.C28_na_fixed"
   ],
   "note": ""
  },
  {
   "property": "C29",
   "status": "partial",
   "theorems": [
    "Stochopy.C29_na_partial",
    "Stochopy.C29_na_violated"
   ],
   "note": "False with fixed variables (C29_na_violated): the walk does not update its distances when it skips a coordinate with lower = upper. Proved when lower < upper in every dimension."
  },
  {
   "property": "C30",
   "status": "partial",
   "theorems": [
    "Stochopy.C30_cpso_partial",
    "Stochopy.C30_pso_partial",
    "Stochopy.C30_na",
    "Stochopy.C30_de_partial",
    "Stochopy.C30_violated"
   ],
   "note": "False for de, and for cpso/pso with immediate updating (C30_violated): X is the caller's array. Proved for na and for deferred cpso/pso; for de each row can only be replaced by a point at least as good (C30_de_partial)."
  },
  {
   "property": "C31",
   "status": "partial",
   "theorems": [
    "Stochopy.C31_mcmc",
    "Stochopy.C31_hmc",
    "Stochopy.Props.C31_cmaes",
    "Stochopy.Props.C31_vdcma",
    "Stochopy.C31_de",
    "Stochopy.C31_na",
    "Stochopy.C31_cpso",
    "Stochopy.C31_pso",
    "Stochopy.Props.C31_cmaes_memory_partial",
    "Stochopy.Props.C31_vdcma_memory_partial",
    "Stochopy.Props.C31_violated"
   ],
   "note": "Proved for all optimizers and samplers with respect to the generator. False for cmaes/vdcma with 'Penalize' and x0 outside the bounds: the first generation reads the uninitialised array xold (C31_violated). Independence of that memory is proved otherwise (C31_*_memory_partial)."
  },
  {
   "property": "C32",
   "status": "proved",
   "theorems": [
    "Stochopy.C32_de",
    "Stochopy.C32_de_error",
    "Stochopy.C32_de_callable",
    "Stochopy.C32_de_first",
    "Stochopy.C32_na",
    "Stochopy.C32_na_error",
    "Stochopy.C32_na_callable",
    "Stochopy.C32_na_first",
    "Stochopy.C32_cpso",
    "Stochopy.C32_cpso_error",
    "Stochopy.C32_cpso_callable",
    "Stochopy.C32_cpso_first",
    "Stochopy.C32_pso",
    "Stochopy.C32_pso_error",
    "Stochopy.C32_pso_callable",
    "Stochopy.C32_pso_first"
   ],
   "note": ""
  },
  {
   "property": "C33",
   "status": "proved",
   "theorems": [
    "Stochopy.Props.C33_unregistered",
    "Stochopy.Props.C33_forwards",
    "Stochopy.Props.C33_reserved",
    "Stochopy.Props.C33_no_options",
    "Stochopy.Props.C33_unknown",
    "Stochopy.Props.C33_minimize",
    "Stochopy.Props.C33_sample"
   ],
   "note": ""
  },
  {
   "property": "C34",
   "status": "proved",
   "theorems": [
    "Stochopy.Props.C34_access",
    "Stochopy.Props.C34_delete",
    "Stochopy.Props.C34_dir",
    "Stochopy.Props.C34_repr"
   ],
   "note": ""
  },
  {
   "property": "C35",
   "status": "proved",
   "theorems": [
    "Stochopy.Props.C35_weights",
    "Stochopy.Props.C35_rates"
   ],
   "note": ""
  },
  {
   "property": "C36",
   "status": "proved",
   "theorems": [
    "Stochopy.Props.C36_loop",
    "Stochopy.Props.C36_cmaes"
   ],
   "note": ""
  },
  {
   "property": "C37",
   "status": "partial",
   "theorems": [
    "Stochopy.Props.C37_cmaes_box",
    "Stochopy.Props.C37_cmaes_value",
    "Stochopy.Props.C37_cmaes_inside_partial",
    "Stochopy.Props.C37_vdcma_box",
    "Stochopy.Props.C37_vdcma_value",
    "Stochopy.Props.C37_vdcma_inside_partial",
    "Stochopy.Props.C37_feasible_partial",
    "Stochopy.Props.C37_history",
    "Stochopy.Props.C37_finite_partial",
    "Stochopy.Props.C37_violated"
   ],
   "note": "Box and lower bound on values proved for all objectives. With NaN values the penalty computation can raise ValueError and feasible candidates can get NaN (C37_violated); the remaining parts are proved for objectives with finite values (C37_*_partial)."
  },
  {
   "property": "C38",
   "status": "partial",
   "theorems": [
    "Stochopy.Props.C38_cmaes_partial",
    "Stochopy.Props.C38_vdcma_partial",
    "Stochopy.Props.C38_violated"
   ],
   "note": "False: the best point of the last generation is returned (C38_violated, C38_*_partial)."
  },
  {
   "property": "C39",
   "status": "partial",
   "theorems": [
    "Stochopy.Props.C39_cmaes_partial",
    "Stochopy.Props.C39_vdcma_partial",
    "Stochopy.Props.C39_cmaes_violated",
    "Stochopy.Props.C39_vdcma_violated",
    "Stochopy.Props.C39_vdcma_axes_violated"
   ],
   "note": "False: -5 and -7 compare with entries that are still 0, so with ftol >= 1e-10 (default 1e-8) they never fire (C39_*_violated); vdcma never reports -2 or -4 (C39_vdcma_axes_violated). What -5 and -7 do mean is C39_*_partial."
  },
  {
   "property": "C40",
   "status": "proved",
   "theorems": [
    "Stochopy.Props.C40_cmaes",
    "Stochopy.Props.C40_vdcma"
   ],
   "note": ""
  },
  {
   "property": "C41",
   "status": "proved",
   "theorems": [
    "Stochopy.Props.C41_loop",
    "Stochopy.Props.C41_vdcma"
   ],
   "note": ""
  },
  {
   "property": "C42",
   "status": "partial",
   "theorems": [
    "Stochopy.Props.C42_violated",
    "Stochopy.Props.C42_rates_partial",
    "Stochopy.Props.C42_adapts_partial"
   ],
   "note": "False for ndim <= 5: the learning rates are not positive and dvec, vvec never change (C42_violated). For ndim >= 6 the rates are positive (C42_rates_partial) and a step vanishes only where the weighted log-likelihood is stationary (C42_adapts_partial)."
  },
  {
   "property": "C43",
   "status": "proved",
   "theorems": [
    "Stochopy.C43_mcmc",
    "Stochopy.C43_hmc"
   ],
   "note": ""
  },
  {
   "property": "C44",
   "status": "proved",
   "theorems": [
    "Stochopy.C44_mcmc",
    "Stochopy.C44_cover"
   ],
   "note": ""
  },
  {
   "property": "C45",
   "status": "proved",
   "theorems": [
    "Stochopy.C45_test",
    "Stochopy.C45_downhill",
    "Stochopy.C45_probability",
    "Stochopy.C45_mcmc",
    "Stochopy.C45_mcmc_balance",
    "Stochopy.C45_hmc",
    "Stochopy.C45_hmc_balance",
    "Stochopy.C45_hmc_gradient",
    "Stochopy.C45_stationary"
   ],
   "note": "Test, acceptance probability, chain of transitions and detailed balance of each transition with respect to exp(-f) (for independent normal and uniform inputs); chains with finite objective values and constraints other than 'Reject' (see C46, C47)."
  },
  {
   "property": "C46",
   "status": "partial",
   "theorems": [
    "Stochopy.C46_mcmc_violated",
    "Stochopy.C46_violated",
    "Stochopy.C46_mcmc_partial"
   ],
   "note": "False: min(0.0, nan) is 0.0, so every tested proposal with a NaN value is accepted (C46_mcmc_violated, witness C46_violated). Proved for +inf."
  },
  {
   "property": "C47",
   "status": "partial",
   "theorems": [
    "Stochopy.C47_mcmc_violated",
    "Stochopy.C47_hmc_violated",
    "Stochopy.C47_violated",
    "Stochopy.C47_mcmc_partial",
    "Stochopy.C47_hmc_partial"
   ],
   "note": "False: in_search_space returns None for 'Reject', so every proposal is rejected in both samplers (C47_*_violated)."
  },
  {
   "property": "C48",
   "status": "partial",
   "theorems": [
    "Stochopy.C48_hmc",
    "Stochopy.C48_mcmc_violated",
    "Stochopy.C48_mcmc_violated_none",
    "Stochopy.C48_mcmc_partial"
   ],
   "note": "Proved for hmc. False for mcmc: the first sample is never considered (C48_mcmc_violated)."
  },
  {
   "property": "C49",
   "status": "partial",
   "theorems": [
    "Stochopy.C49_mcmc_partial",
    "Stochopy.C49_violated",
    "Stochopy.C49_violated_empty"
   ],
   "note": "False: blocks that do not divide the dimension raise ValueError (C49_violated); the exact condition is C49_mcmc_partial."
  },
  {
   "property": "C50",
   "status": "proved",
   "theorems": [
    "Stochopy.C50_hmc",
    "Stochopy.C50_hmc_volume",
    "Stochopy.C50_numerical"
   ],
   "note": ""
  },
  {
   "property": "C51",
   "status": "partial",
   "theorems": [
    "Stochopy.C51_violated"
   ],
   "note": "False: a callable jac always raises RecursionError or TypeError (C51_violated)."
  },
  {
   "property": "C52",
   "status": "proved",
   "theorems": [
    "Stochopy.C52_hmc"
   ],
   "note": ""
  },
  {
   "property": "C53",
   "status": "proved",
   "theorems": [
    "Stochopy.C53_hmc",
    "Stochopy.C53_hmc_quadratic"
   ],
   "note": ""
  },
  {
   "property": "C54",
   "status": "partial",
   "theorems": [
    "Stochopy.C54_mcmc_partial",
    "Stochopy.C54_hmc_partial",
    "Stochopy.C54_mcmc_violated",
    "Stochopy.C54_hmc_violated"
   ],
   "note": "False: from the second call on the attached history is one sample short (C54_*_violated)."
  },
  {
   "property": "C55",
   "status": "partial",
   "theorems": [
    "Stochopy.C55_mcmc_violated",
    "Stochopy.C55_hmc_violated",
    "Stochopy.C55_violated",
    "Stochopy.C55_mcmc_partial",
    "Stochopy.C55_hmc_partial"
   ],
   "note": "False for float arrays, which are scaled in place (C55_*_violated); numbers and lists are left alone."
  },
  {
   "property": "C56",
   "status": "proved",
   "theorems": [
    "Stochopy.C56_mcmc",
    "Stochopy.C56_hmc"
   ],
   "note": ""
  },
  {
   "property": "C57",
   "status": "partial",
   "theorems": [
    "Stochopy.Props.C57_sphere",
    "Stochopy.Props.C57_quartic",
    "Stochopy.Props.C57_rosenbrock_partial",
    "Stochopy.Props.C57_rosenbrock_violated",
    "Stochopy.Props.C57_rosenbrock_nonneg_partial",
    "Stochopy.Props.C57_styblinski_violated",
    "Stochopy.Props.C57_styblinski_partial",
    "Stochopy.Props.C57_ones",
    "Stochopy.Props.C57_rastrigin",
    "Stochopy.Props.C57_griewank",
    "Stochopy.Props.C57_ackley_partial",
    "Stochopy.Props.C57_ackley_violated",
    "Stochopy.Props.C57_styblinski_min_partial",
    "Stochopy.Props.C57_ones_real"
   ],
   "note": "ackley (minimum litE - e < 0 in exact arithmetic), styblinski_tang (constant 39.16599 too small: negative values in every dimension) and one-dimensional rosenbrock (identically 0) violate the full statement (C57_*_violated); the rest is proved, with the exact minima of ackley and styblinski_tang."
  },
  {
   "property": "C58",
   "status": "proved",
   "theorems": [
    "Stochopy.C58_na",
    "Stochopy.C58_na_degenerate",
    "Stochopy.Props.C58_cmaes"
   ],
   "note": ""
  },
  {
   "property": "C59",
   "status": "partial",
   "theorems": [
    "Stochopy.Props.C59_de",
    "Stochopy.Props.C59_cpso",
    "Stochopy.Props.C59_pso",
    "Stochopy.Props.C59_na_partial",
    "Stochopy.Props.C59_na_violated",
    "Stochopy.Props.C59_cmaes",
    "Stochopy.Props.C59_vdcma"
   ],
   "note": "False for na on every input (C59_na_violated: the default callback=True is rejected). Proved for de, cpso, pso, cmaes, and vdcma unless degenerate."
  },
  {
   "property": "C60",
   "status": "partial",
   "theorems": [
    "Stochopy.Props.C60_lower_violated",
    "Stochopy.Props.C60_upper_partial",
    "Stochopy.Props.C60_initial_partial",
    "Stochopy.Props.C60_violated"
   ],
   "note": "False: the overshoot below the lower bound is computed as 0, so weights never grow there (C60_lower_violated, witness C60_violated). The upper bound and the initialisation are proved."
  },
  {
   "property": "C61",
   "status": "proved",
   "theorems": [
    "Stochopy.C61_cpso",
    "Stochopy.C61_pso"
   ],
   "note": ""
  },
  {
   "property": "C62",
   "status": "proved",
   "theorems": [
    "Stochopy.C62_mcmc",
    "Stochopy.C62_hmc"
   ],
   "note": ""
  },
  {
   "property": "C63",
   "status": "partial",
   "theorems": [
    "Stochopy.C63_mcmc_violated",
    "Stochopy.C63_hmc_violated"
   ],
   "note": "False: an integer stepsize raises TypeError (C63_*_violated)."
  },
  {
   "property": "C64",
   "status": "partial",
   "theorems": [
    "Stochopy.C64_hmc_partial",
    "Stochopy.C64_violated"
   ],
   "note": "False: nleap + 1 leap-frog steps are made (C64_violated, C64_hmc_partial)."
  },
  {
   "property": "C65",
   "status": "proved",
   "theorems": [
    "Stochopy.Props.C65_cmaes",
    "Stochopy.Props.C65_vdcma"
   ],
   "note": ""
  },
  {
   "property": "C66",
   "status": "partial",
   "theorems": [
    "Stochopy.Props.C66_cmaes_error",
    "Stochopy.Props.C66_cmaes",
    "Stochopy.Props.C66_cmaes_callable",
    "Stochopy.Props.C66_vdcma_error",
    "Stochopy.Props.C66_vdcma_partial",
    "Stochopy.Props.C66_vdcma_callable",
    "Stochopy.Props.C66_violated"
   ],
   "note": "Proved for cmaes. False for vdcma with popsize = 1, which raises IndexError (C66_violated). Otherwise proved for vdcma except where it divides by zero because v is 0 or the mean does not move (Degenerate, C66_vdcma_partial)."
  },
  {
   "property": "C67",
   "status": "proved",
   "theorems": [
    "Stochopy.Props.C67_step",
    "Stochopy.Props.C67_loop"
   ],
   "note": ""
  },
  {
   "property": "C68",
   "status": "proved",
   "theorems": [
    "Stochopy.Props.C68_cmaes",
    "Stochopy.Props.C68_vdcma",
    "Stochopy.Props.C68_cmaes_sigma",
    "Stochopy.Props.C68_vdcma_sigma"
   ],
   "note": ""
  },
  {
   "property": "C69",
   "status": "proved",
   "theorems": [
    "Stochopy.Props.C69_cmaes",
    "Stochopy.Props.C69_vdcma",
    "Stochopy.Props.C69_cmaes_run",
    "Stochopy.Props.C69_vdcma_run"
   ],
   "note": ""
  },
  {
   "property": "C70",
   "status": "proved",
   "theorems": [
    "Stochopy.Props.C70_cmaes",
    "Stochopy.Props.C70_vdcma"
   ],
   "note": ""
  },
  {
   "property": "C71",
   "status": "partial",
   "theorems": [
    "Stochopy.Props.C71_de",
    "Stochopy.Props.C71_cpso_partial",
    "Stochopy.Props.C71_pso",
    "Stochopy.Props.C71_na",
    "Stochopy.Props.C71_cpso_violated"
   ],
   "note": "Full for de, pso and na (na under the hypothesis that argsort decides by comparisons, proved for the stable argsort). Violated for cpso with restarts: the constant 1e30 written into the personal best value of a restarted particle is compared with objective values (C71_cpso_violated); C71_cpso_partial covers no restarts, or phi(1e30) = 1e30."
  },
  {
   "property": "C72",
   "status": "partial",
   "theorems": [
    "Stochopy.Props.C72_de",
    "Stochopy.Props.C72_cpso_partial",
    "Stochopy.Props.C72_pso",
    "Stochopy.Props.C72_na_partial",
    "Stochopy.Props.C72_cmaes",
    "Stochopy.Props.C72_vdcma",
    "Stochopy.Props.C72_cpso_violated",
    "Stochopy.Props.C72_na_violated",
    "Stochopy.Props.C72_mcmc",
    "Stochopy.Props.C72_hmc"
   ],
   "note": "Full for de, pso, cmaes, vdcma, mcmc and hmc. Violated for cpso with restarts (the swarm radius, a length, is compared with a number without unit: C72_cpso_violated; C72_cpso_partial covers changes of origin, and all units without restarts) and for na with variables fixed by equal bounds (C72_na_violated; C72_na_partial covers lower < upper). The record of the initial population by na is in unit-cube coordinates and does not change."
  },
  {
   "property": "C73",
   "status": "proved",
   "theorems": [
    "Stochopy.Props.C73_de",
    "Stochopy.Props.C73_na",
    "Stochopy.Props.C73_cpso",
    "Stochopy.Props.C73_pso",
    "Stochopy.Props.C73_cmaes",
    "Stochopy.Props.C73_vdcma"
   ],
   "note": "Full. C73_cpso keeps maxiter unless restarts are off; Concrete.cpso_schedule shows that this is needed."
  },
  {
   "property": "C74",
   "status": "proved",
   "theorems": [
    "Stochopy.Props.C74_cmaes",
    "Stochopy.Props.C74_vdcma"
   ],
   "note": "Full, for argsorts that decide by comparisons (proved for the stable argsort)."
  },
  {
   "property": "C75",
   "status": "proved",
   "theorems": [
    "Stochopy.Props.C75_cmaes",
    "Stochopy.Props.C75_vdcma"
   ],
   "note": "Full for finite objective values (NaN and infinite values are the subject of C37). Over an ordered field with sqrt, exp and log as given functions; the mean before the first generation is uninitialised memory in the code and appears as the parameter junk (see C31)."
  },
  {
   "property": "C76",
   "status": "partial",
   "theorems": [
    "Stochopy.C76_de",
    "Stochopy.C76_cpso_root",
    "Stochopy.C76_pso_root",
    "Stochopy.C76_na_root",
    "Stochopy.C76_cmaes_root",
    "Stochopy.C76_vdcma_root",
    "Stochopy.C76_cpso_seed_partial",
    "Stochopy.C76_pso_seed_partial",
    "Stochopy.C76_na_seed_partial",
    "Stochopy.C76_cmaes_seed_partial",
    "Stochopy.C76_vdcma_seed_partial",
    "Stochopy.C76_pso_partial",
    "Stochopy.C76_cpso_partial",
    "Stochopy.C76_pso_values",
    "Stochopy.C76_cpso_values_partial",
    "Stochopy.C76_na_values",
    "Stochopy.C76_pso_violated",
    "Stochopy.C76_cpso_violated",
    "Stochopy.C76_na_violated",
    "Stochopy.C76_cmaes_violated",
    "Stochopy.C76_vdcma_violated",
    "Stochopy.C76_cmaes_deadlock_violated"
   ],
   "note": "Full for de. Violated by the other optimizers when the ranks have different generator states (no seed): pso and cpso copy the initial personal bests before the broadcast; na, cmaes and vdcma broadcast a temporary array, so that the other ranks pair their own points with the values of rank 0's points (C76_*_violated, two ranks; C76_cmaes_deadlock_violated: a run that never ends). Proved: rank 0 always returns what the serial run returns (*_root); with a seed all ranks agree (*_seed_partial; for cmaes and vdcma the uninitialised memory is assumed to be the same); pso with x0, and cpso with x0 and an objective below 1e30, agree for any generators; pso and na always end together with the same values (*_values), and so does cpso, although each rank restarts its own particles, when the objective stays below 1e30 (C76_cpso_values_partial). Missing: cpso with larger values."
  },
  {
   "property": "C77",
   "status": "proved",
   "theorems": [
    "Stochopy.Props.C77_cmaes",
    "Stochopy.Props.C77_vdcma"
   ],
   "note": "Full over the reals with exact arithmetic. The equations are in Spec/CMA.lean and Spec/VDCMA.lean and do not mention the model. eigh is any function with the contract of np.linalg.eigh. The value 0 in the rules -5 and -7 is the defect of C39, stated as it is."
  },
  {
   "property": "C78",
   "status": "proved",
   "theorems": [
    "Stochopy.C78_de",
    "Stochopy.C78_de_unique"
   ],
   "note": "Full, for any arithmetic (in particular floating point). The description is Spec/DERun.lean with Spec/Report.lean and does not mention the model; C78_de_unique shows that it leaves no freedom. The stopping rule of immediate updating is that of the last member (C07), stated as it is."
  },
  {
   "property": "C79",
   "status": "proved",
   "theorems": [
    "Stochopy.C79_cpso",
    "Stochopy.C79_pso",
    "Stochopy.C79_pso_norestart",
    "Stochopy.C79_unique"
   ],
   "note": "Full, for any arithmetic (in particular floating point). The description is Spec/PSORun.lean; C79_unique shows that it leaves no freedom. The value 1e30 given to restarted particles is stated as it is."
  },
  {
   "property": "C80",
   "status": "proved",
   "theorems": [
    "Stochopy.C80_na",
    "Stochopy.C80_na_unique",
    "Stochopy.C80_na_slice"
   ],
   "note": "Full for boxes without fixed variables (with them the walk is wrong: C29_na_violated) and first populations inside the box; exact arithmetic. The description is Spec/NARun.lean; the first population is recorded in unit coordinates (C13), stated as it is."
  },
  {
   "property": "C81",
   "status": "proved",
   "theorems": [
    "Stochopy.C81_mcmc",
    "Stochopy.C81_mcmc_unique",
    "Stochopy.C81_exact"
   ],
   "note": "Full, for any arithmetic (in particular floating point) whose logarithm is negative below 1; C81_exact: the numbers in exact arithmetic. The description is Spec/SamplerRun.lean; C81_mcmc_unique shows that it leaves no freedom. Known defects (nothing accepted with \"Reject\", C47; history given to the callback one sample short, C54; best among accepted proposals only) are stated as they are."
  },
  {
   "property": "C82",
   "status": "proved",
   "theorems": [
    "Stochopy.C82_hmc",
    "Stochopy.C82_hmc_unique",
    "Stochopy.C82_exact"
   ],
   "note": "Full, for any arithmetic (in particular floating point) whose logarithm is negative below 1; C82_exact: the gradient is the central difference in exact arithmetic (in floating point arithmetic not quite, C87). The description is Spec/SamplerRun.lean; C82_hmc_unique shows that it leaves no freedom. Known defects (nleap + 1 position steps, C64; a given gradient is unusable, so a call with one completes only with one sample) are stated as they are."
  },
  {
   "property": "C83",
   "status": "partial",
   "theorems": [
    "Stochopy.C83_pso_violated",
    "Stochopy.C83_pso_far_violated",
    "Stochopy.C83_shrink_partial"
   ],
   "note": "Full claim false: C83_pso_violated (default parameters, 5.120000000000001 evaluated for the bound 5.12), C83_pso_far_violated (a later point is more than 30 box widths outside; pso is cpso without restarts, C27). Proved instead: one move from a feasible position passes a bound by at most 2^-51 of the distance to it, rounded (C83_shrink_partial); exact arithmetic: C16."
  },
  {
   "property": "C84",
   "status": "partial",
   "theorems": [
    "Stochopy.C84_na_violated",
    "Stochopy.C84_na_partial"
   ],
   "note": "Full claim false: C84_na_violated (the bound 3.7 is evaluated as 3.7000000000000006). Proved instead, for whole runs: all points are between lower and the rounded (upper - lower) + lower, if the first population is inside the bounds; exact arithmetic: C28."
  },
  {
   "property": "C85",
   "status": "partial",
   "theorems": [
    "Stochopy.C85_lhs_violated",
    "Stochopy.C85_lhs_partial",
    "Stochopy.C85_lhs_error_partial"
   ],
   "note": "Full claim false: C85_lhs_violated. Proved instead: the points are between the rounded images of -1 and 1, which differ from the bounds by at most the fraction 2^-53 of the larger bound, rounded (population of at most 2^50); exact arithmetic: C18."
  },
  {
   "property": "C86",
   "status": "proved",
   "theorems": [
    "Stochopy.C86_de",
    "Stochopy.C86_de_lhs"
   ],
   "note": "Full. Proved from laws that rounding to nearest keeps (class RoundedOps), instance for the floating point numbers F64 in Base/Rounding.lean."
  },
  {
   "property": "C87",
   "status": "partial",
   "theorems": [
    "Stochopy.C87_gradient_violated",
    "Stochopy.C87_zero_violated",
    "Stochopy.C87_hmc_violated",
    "Stochopy.C87_exact_partial",
    "Stochopy.C87_double_partial"
   ],
   "note": "Full claim false: C87_gradient_violated (the derivative of x with respect to the other variable at (4, 1) is about -2e-12, with the default step), C87_zero_violated (a coordinate 1e-30 is replaced by zero), C87_hmc_violated (in a completed call). Proved instead: exact arithmetic (C87_exact_partial); in floating point arithmetic the other coordinates are changed by at most 2^-51 of the numbers involved (C87_double_partial)."
  },
  {
   "property": "C88",
   "status": "proved",
   "theorems": [
    "Stochopy.C88_mcmc",
    "Stochopy.C88_hmc"
   ],
   "note": "Full. Proved from laws that rounding to nearest keeps (class RoundedOps); examples at F64."
  },
  {
   "property": "C89",
   "status": "partial",
   "theorems": [
    "Stochopy.C89_cmaes_violated",
    "Stochopy.C89_vdcma_violated",
    "Stochopy.C89_cmaes_inside_violated",
    "Stochopy.C89_vdcma_inside_violated",
    "Stochopy.C89_cmaes_partial",
    "Stochopy.C89_vdcma_partial"
   ],
   "note": "Full claim false: C89_cmaes_violated, C89_vdcma_violated (returned point above the upper bound), C89_*_inside_violated (penalised value at a point strictly inside). Proved instead: all points satisfy the bounds up to the fraction 2^-53 of the larger bound, rounded. Exact arithmetic: C37."
  },
  {
   "property": "C90",
   "status": "partial",
   "theorems": [
    "Stochopy.C90_memory",
    "Stochopy.C90_na",
    "Stochopy.C90_cpso_partial",
    "Stochopy.C90_pso_partial",
    "Stochopy.C90_cpso_restarts_partial",
    "Stochopy.C90_de_partial",
    "Stochopy.C90_cpso_immediate_partial",
    "Stochopy.C90_pso_immediate_partial",
    "Stochopy.C90_de_x0",
    "Stochopy.C90_cpso_x0",
    "Stochopy.C90_de_violated",
    "Stochopy.C90_pso_violated",
    "Stochopy.C90_cpso_violated"
   ],
   "note": "Full claim false: C90_de_violated (both updating modes), C90_pso_violated (immediate updating), C90_cpso_violated (deferred updating with restarts). Proved: na keeps them (C90_na), so do pso and cpso with deferred updating and without restarts (C90_pso_partial, C90_cpso_partial); with restarts every row is as shown or holds the restart's draws; with in-place updating every kept array holds the last population (C90_de_partial, C90_*_immediate_partial). C90_memory: the memory does not change the run; C90_*_x0: it agrees with what C30 says about x0. cmaes and vdcma pass a new array per call and are not part of the memory model."
  },
  {
   "property": "C91",
   "status": "partial",
   "theorems": [
    "Stochopy.C91_floats",
    "Stochopy.C91_lists_raise",
    "Stochopy.C91_de_grid",
    "Stochopy.C91_de_immediate_partial",
    "Stochopy.C91_de_deferred_partial",
    "Stochopy.C91_cpso_grid",
    "Stochopy.C91_pso_grid",
    "Stochopy.C91_cpso_immediate_partial",
    "Stochopy.C91_pso_immediate_partial",
    "Stochopy.C91_cpso_deferred_partial",
    "Stochopy.C91_pso_deferred_partial",
    "Stochopy.C91_de_violated",
    "Stochopy.C91_pso_violated",
    "Stochopy.C91_cpso_violated",
    "Stochopy.C91_value_violated",
    "Stochopy.C91_box_violated",
    "Stochopy.C91_lists_violated"
   ],
   "note": "Full claim false. Integer arrays: de, pso and cpso search another space (C91_de_violated, C91_pso_violated, C91_cpso_violated); with deferred updating the reported value belongs to a point of which the solution is the integer part (C91_value_violated, C91_*_deferred_partial); with immediate updating pso and cpso only ever evaluate integer points (C91_cpso_grid), with Shrink also outside of the box (C91_box_violated). Nested lists: no call returns (C91_lists_raise, C91_lists_violated). Proved: with immediate updating the value still belongs to the solution (C91_*_immediate_partial); an array that stores what it is given yields the model used everywhere else (C91_floats). na, cmaes, vdcma and the samplers convert x0 to floats."
  },
  {
   "property": "C92",
   "status": "partial",
   "theorems": [
    "Stochopy.C92_floats",
    "Stochopy.C92_mpi",
    "Stochopy.C92_de_ints",
    "Stochopy.C92_cpso_ints_partial",
    "Stochopy.C92_pso_ints",
    "Stochopy.C92_na_ints",
    "Stochopy.C92_de_immediate_partial",
    "Stochopy.C92_cpso_immediate_partial",
    "Stochopy.C92_pso_immediate_partial",
    "Stochopy.C92_de_deferred_partial",
    "Stochopy.C92_cpso_deferred_partial",
    "Stochopy.C92_pso_deferred_partial",
    "Stochopy.C92_na_deferred_partial",
    "Stochopy.C92_cmaes_partial",
    "Stochopy.C92_vdcma_partial",
    "Stochopy.C92_penalize_raises",
    "Stochopy.C92_types_violated",
    "Stochopy.C92_value_violated",
    "Stochopy.C92_cpso_violated",
    "Stochopy.C92_penalize_violated"
   ],
   "note": "Full claim false. With an objective that returns integers on the whole initial population and floats elsewhere, de, pso and na report (deferred updating) a truncated value (C92_value_violated), and the histories differ in both modes (C92_types_violated); with restarts cpso reports the smallest integer as minimum of an objective without negative values (C92_cpso_violated); with Penalize no run of cmaes or vdcma returns if the objective always returns integers (C92_penalize_raises, C92_penalize_violated). Proved: an objective all of whose values are integers gives the same outcome for de, pso, na and for cpso without restarts (C92_*_ints, C92_cpso_ints_partial), with MPI the types never matter (C92_mpi), with immediate updating the value belongs to the solution (C92_*_immediate_partial), with deferred updating it is the value of the solution or its integer part (C92_*_deferred_partial), and a run of cmaes or vdcma that returns gives what it gives for floats (C92_cmaes_partial, C92_vdcma_partial)."
  },
  {
   "property": "C93",
   "status": "proved",
   "theorems": [
    "Stochopy.C93_same_de",
    "Stochopy.C93_same_cpso",
    "Stochopy.C93_same_pso",
    "Stochopy.C93_same_na",
    "Stochopy.C93_answer_de",
    "Stochopy.C93_answer_cpso",
    "Stochopy.C93_answer_pso",
    "Stochopy.C93_answer_na",
    "Stochopy.C93_best_de",
    "Stochopy.C93_best_cpso",
    "Stochopy.C93_best_pso",
    "Stochopy.C93_best_na",
    "Stochopy.C93_mono_de",
    "Stochopy.C93_mono_cpso",
    "Stochopy.C93_mono_pso",
    "Stochopy.C93_mono_na",
    "Stochopy.C93_same_cmaes",
    "Stochopy.C93_same_vdcma",
    "Stochopy.C93_answer_cmaes",
    "Stochopy.C93_answer_vdcma",
    "Stochopy.C93_counts_cmaes",
    "Stochopy.C93_counts_vdcma",
    "Stochopy.C93_runs"
   ],
   "note": "The k-th request of a run is answered by ans k x. Requests are numbered in the order of the rows of the population, also for parallel backends (joblib may evaluate in another order; ans is arbitrary, so only the naming of the requests changes). C93_same_*: a constant answer function gives minimize of the other claims. C93_runs: a drifting objective in all six optimizers."
  },
  {
   "property": "C94",
   "status": "partial",
   "theorems": [
    "Stochopy.C94_de",
    "Stochopy.C94_cpso",
    "Stochopy.C94_pso",
    "Stochopy.C94_na",
    "Stochopy.C94_cmaes_partial",
    "Stochopy.C94_vdcma_partial",
    "Stochopy.C94_firstGen_violated",
    "Stochopy.C94_cpso_shrink",
    "Stochopy.C94_pso_shrink",
    "Stochopy.C94_cmaes_firstGen",
    "Stochopy.C94_vdcma_firstGen",
    "Stochopy.C94_mcmc",
    "Stochopy.C94_hmc_partial",
    "Stochopy.C94_hmc_violated",
    "Stochopy.C94_hmc_evals_violated"
   ],
   "note": "Full claim false for cmaes, vdcma and hmc. cmaes and vdcma with x0: standardize divides by zero and the fixed variable is NaN in every point of the first generation (C94_firstGen_violated; C94_cmaes_firstGen and C94_vdcma_firstGen tie that computation to the model of whole runs); without x0 the claim holds (C94_cmaes_partial, C94_vdcma_partial). hmc: the finite differences evaluate the objective at other values of the fixed variable (C94_hmc_evals_violated); if it is infinite there, the fixed variable of later samples is NaN (C94_hmc_violated); with finite values all samples keep it (C94_hmc_partial). Proved in full: de, na, mcmc; pso and cpso without constraints in any arithmetic with the laws CancelOps, with Shrink in exact arithmetic (C94_cpso_shrink, C94_pso_shrink)."
  },
  {
   "property": "C95",
   "status": "partial",
   "theorems": [
    "Stochopy.C95_reach",
    "Stochopy.C95_mcmc_kernel",
    "Stochopy.C95_mcmc",
    "Stochopy.C95_reject_violated",
    "Stochopy.C95_hmc_partial",
    "Stochopy.C95_hmc_period",
    "Stochopy.C95_hmc_violated",
    "Stochopy.C95_hmc_kernel_violated",
    "Stochopy.C95_cmaes",
    "Stochopy.C95_vdcma"
   ],
   "note": "Full claim false for hmc, and for constraints='Reject'. mcmc (constraints None): after one turn of every block, every set of positive volume has positive probability, whatever the objective (C95_mcmc; C95_reach: the recursive integral is the probability of an event in the product space). 'Reject': every sample equals the first (C95_reject_violated, from C47). hmc: for the sum of squares with steps of size 1 and nleap=1 every trajectory ends in -q for every momentum, so the samples alternate between two points (C95_hmc_violated for a whole run, C95_hmc_kernel_violated as a probability); for a Lipschitz gradient and trajectories with ((nleap+1)*step)^2*kappa <= 1 one iteration reaches every set of positive volume (C95_hmc_partial). cmaes and vdcma: every drawn (not injected) point, before clipping, in standardised coordinates (C95_cmaes, C95_vdcma)."
  },
  {
   "property": "C96",
   "status": "partial",
   "theorems": [
    "Stochopy.C96_mcmc_kernel_start",
    "Stochopy.C96_mcmc_start",
    "Stochopy.C96_mcmc_x0_violated",
    "Stochopy.C96_mcmc_kernel",
    "Stochopy.C96_mcmc",
    "Stochopy.C96_mcmc_x0",
    "Stochopy.C96_mcmc_value",
    "Stochopy.C96_hmc_kernel_partial",
    "Stochopy.C96_hmc_partial",
    "Stochopy.C96_hmc_x0_partial",
    "Stochopy.C96_hmc_violated",
    "Stochopy.C96_flat_violated"
   ],
   "note": "Full claim false for hmc, and for objectives whose exp(-f) has no finite integral. mcmc (constraints None) with a finite integral of exp(-f) and all step sizes non-zero: from almost every start and with probability one every set of positive volume is visited infinitely often (C96_mcmc_kernel for the chain; C96_mcmc and C96_mcmc_x0 for the samples of calls, driven by an ideal generator; C96_mcmc_value for the reported minimum). 'Almost every start' is what recurrence from an invariant measure gives; with x0=None the start is random in the box and the exceptional null set plays no role. With perc=1 (the default) there is no exceptional set (C96_mcmc_kernel_start, C96_mcmc_start). With smaller blocks there are exceptional starts: C96_mcmc_x0_violated (two blocks of four variables, f = |z|^2 exp |y|^2, start in the origin, default step size: with probability at least 31/32 no sample ever leaves the plane z=0). Constant objective, three or more variables, perc=1, constraints None: with probability one all samples from some point on lie outside the box (C96_flat_violated). hmc: the periodic chain of C95 never leaves two points (C96_hmc_violated); for short trajectories and a Lipschitz gradient every set of positive volume is visited infinitely often from every start (C96_hmc_kernel_partial, C96_hmc_partial, C96_hmc_x0_partial). constraints='Reject' never leaves the start (C95_reject_violated). Ideal generator: the numbers it returns, for each fixed schedule of normal and uniform draws, are measurable, independent and distributed as requested (Spec/Ideal.lean); a generator reading an infinite stream of independent numbers is one (stream_ideal)."
  },
  {
   "property": "C97",
   "status": "partial",
   "theorems": [
    "Stochopy.C97_kernel_partial",
    "Stochopy.C97_inertia_kernel_violated",
    "Stochopy.C97_apart_kernel_violated",
    "Stochopy.C97_pso_partial",
    "Stochopy.C97_apart_violated",
    "Stochopy.C97_inertia_violated"
   ],
   "note": "Full claim false in two ways. Inertia 1 (accepted; with cognitivity = sociability = 2 the original parameters of Kennedy and Eberhart): the particle that holds the best point does not converge to it, with probability one (C97_inertia_kernel_violated for one coordinate and any weights, C97_inertia_violated for calls of pso). A particle whose best point differs from that of the swarm comes to rest nowhere, whatever the inertia, unless cognitivity or sociability is zero (C97_apart_kernel_violated; C97_apart_violated for calls of pso with a constant objective). Proved: with parameters that contract in mean square ((c1^2+c2^2)/12 + (1+w-(c1+c2)/2)^2 (1-w)/(1+w) < 1-w^2, Spec/Pull.lean; the default parameters do) and a common best point the particle comes to rest there (C97_kernel_partial; C97_pso_partial for calls of pso without constraints and with x0 given, both updatings, with a number of generations that does not depend on the run's length). Ideal generator as in C96."
  },
  {
   "property": "C98",
   "status": "partial",
   "theorems": [
    "Stochopy.Props.C98_de_partial",
    "Stochopy.Props.C98_cpso_partial",
    "Stochopy.Props.C98_pso_partial",
    "Stochopy.Props.C98_cmaes_partial",
    "Stochopy.Props.C98_vdcma_partial",
    "Stochopy.Props.C98_cmaes_law_partial",
    "Stochopy.Props.C98_vdcma_law_partial",
    "Stochopy.Props.C98_mcmc_law",
    "Stochopy.Props.C98_hmc_law",
    "Stochopy.Props.C98_na_partial",
    "Stochopy.Props.C98_de_violated",
    "Stochopy.Props.C98_cpso_violated",
    "Stochopy.Props.C98_pso_violated",
    "Stochopy.Props.C98_na_violated",
    "Stochopy.Props.C98_cmaes_violated",
    "Stochopy.Props.C98_vdcma_violated",
    "Stochopy.Props.C98_mcmc_partial",
    "Stochopy.Props.C98_hmc_partial"
   ],
   "note": "Full claim false: without x0 the Latin hypercube of de, pso, cpso and na sits in the lower half of its cells (C19), so the points evaluated in the reflected problem are never the mirror images, whatever the generator and its states (C98_de_violated, C98_pso_violated, C98_cpso_violated, C98_na_violated); and 'Penalize' looks at means above the upper bounds only (C98_cmaes_violated, C98_vdcma_violated). Proved: with x0 given de (constraints None), pso and cpso (no restarts; any constraints) give the reflected run with the same random numbers, na (lower < upper) with 1-u for every uniform number, cmaes and vdcma (constraints None) with the opposite normal numbers, mcmc and hmc likewise (for hmc the order of the two evaluations of a central difference is exchanged). Laws, with ideal random numbers and also without x0: C98_cmaes_law_partial, C98_vdcma_law_partial, C98_mcmc_law, C98_hmc_law. Not covered: de with 'Random' and cpso with restarts (the uniform numbers of redrawn points would have to be reflected, the others not), variables fixed by equal bounds in na, a given seed when numbers must be reflected."
  },
  {
   "property": "C99",
   "status": "proved",
   "theorems": [
    "Stochopy.Props.C99_cmaes",
    "Stochopy.Props.C99_normals"
   ],
   "note": "Exact real arithmetic, constraints None, x0 given, any eigh that satisfies IsEigh and any argsort. The rules -2, -3, -6 and -8 look at single coordinates or axes of C, so runs are compared until one of them ends. The rotation of a generation's normal numbers is a function of the points and numbers of the generations before it; C99_normals says that numbers turned by a rotation fixed before they are drawn have the same law. The law of whole runs (measurability of the choice of rotation) is not stated."
  },
  {
   "property": "C100",
   "status": "proved",
   "theorems": [
    "Stochopy.Props.C100_de_isometry",
    "Stochopy.Props.C100_de_linear",
    "Stochopy.Props.C100_de_needs_full",
    "Stochopy.Props.C100_mcmc",
    "Stochopy.Props.C100_hmc",
    "Stochopy.Props.C100_hmc_cubic",
    "Stochopy.Props.C100_mcmc_law",
    "Stochopy.Props.C100_hmc_law"
   ],
   "note": "Exact arithmetic, constraints None, starting points given. de: C100_de_isometry (rotations) and C100_de_linear (any invertible matrix, xtol = 0), run for run; C100_de_needs_full shows that recombination < 1 does depend on the axes. mcmc: C100_mcmc run for run with turned normal numbers, C100_mcmc_law in law. hmc (C100_hmc, C100_hmc_law): objectives of degree two, for which the central differences are exact (C100_hmc_cubic: for others the estimated gradient is not turned; the gradient parameter jac cannot be used at all, C51)."
  },
  {
   "property": "C101",
   "status": "partial",
   "theorems": [
    "Stochopy.C101_mcmc_kernel",
    "Stochopy.C101_mcmc_kernel_start",
    "Stochopy.C101_hmc_kernel_partial",
    "Stochopy.C101_mcmc",
    "Stochopy.C101_mcmc_x0",
    "Stochopy.C101_mcmc_start",
    "Stochopy.C101_hmc_partial",
    "Stochopy.C101_hmc_x0_partial",
    "Stochopy.C101_hmc_violated",
    "Stochopy.C101_mcmc_x0_violated"
   ],
   "note": "Full claim false for hmc and for constraints='Reject' (every sample equals the first, C95_reject_violated). mcmc (constraints None, all step sizes non-zero, exp(-f) with a finite integral): proved from a random start (C101_mcmc), from almost every given start for any perc (C101_mcmc_x0), from every start for perc=1 (C101_mcmc_start). For smaller blocks 'almost every' cannot be replaced by 'every': C101_mcmc_x0_violated (f = |z|^2 exp |y|^2 with two blocks of four variables, start in the origin: with probability at least 31/32 the share of the samples with z not 0 is zero for ever, its mean is one). hmc: C101_hmc_violated is the periodic chain of C95, whose averages have nothing to do with the mean; for a Lipschitz gradient and ((nleap+1)*step)^2*kappa <= 1 the averages converge from every start (C101_hmc_partial, C101_hmc_x0_partial). The proof: the density is invariant (detailed balance, C45), every set of positive volume can be reached (C95), hence the chain in equilibrium is ergodic; the pointwise ergodic theorem is proved in Lemmas/Birkhoff.lean. Ideal generator as in C96. The means are those of exact arithmetic."
  },
  {
   "property": "C102",
   "status": "partial",
   "theorems": [
    "Stochopy.C102_mcmc_x0_violated",
    "Stochopy.C102_mcmc_kernel_start",
    "Stochopy.C102_mcmc_kernel",
    "Stochopy.C102_mcmc_kernel_x0",
    "Stochopy.C102_hmc_kernel_partial",
    "Stochopy.C102_mcmc_start",
    "Stochopy.C102_mcmc_x0",
    "Stochopy.C102_mcmc",
    "Stochopy.C102_hmc_x0_partial",
    "Stochopy.C102_hmc_partial",
    "Stochopy.C102_hmc_violated"
   ],
   "note": "mcmc with constraints None, non-zero step sizes, exp(-f) with a finite integral: proved for a random start and every perc (C102_mcmc), for almost every given start and every perc (C102_mcmc_x0), and for every given start when perc=1 (C102_mcmc_start). hmc: false in general (C102_hmc_violated: the periodic chain of C95 never enters a half-line of positive probability); true for a Lipschitz gradient and ((nleap+1)*step)^2*kappa <= 1 (C102_hmc_partial, C102_hmc_x0_partial). False from some given starts (a set of volume zero) when mcmc moves blocks (perc<1): C102_mcmc_x0_violated; false for constraints='Reject' (C95_reject_violated). The proof: the transition is reversible (detailed balance), so the variances of the conditional expectations decrease to a limit which is invariant under two steps, and two steps reach every set of positive volume; convergence in mean square, then in total variation for every law with a density, then for every start because the second sample has a part with a density (Lemmas/Mixing.lean). For blocks the transitions change with the iteration: each one is also positive (Lemmas/Positive.lean: a Gaussian step is the sum of two independent halves), so consecutive densities approach each other, and together with C101 this gives convergence (Lemmas/Sweep.lean). From almost every start every coordinate changes sooner or later, and then the law has a density (Lemmas/BlockStart.lean). No rate is claimed."
  },
  {
   "property": "C103",
   "status": "partial",
   "theorems": [
    "Stochopy.C103_na",
    "Stochopy.C103_same_de_partial",
    "Stochopy.C103_same_cpso_partial",
    "Stochopy.C103_same_pso_partial",
    "Stochopy.C103_point_de_partial",
    "Stochopy.C103_point_cpso_partial",
    "Stochopy.C103_point_pso_partial",
    "Stochopy.C103_clip_de_partial",
    "Stochopy.C103_clip_cpso_partial",
    "Stochopy.C103_clip_pso_partial",
    "Stochopy.C103_same_mcmc_partial",
    "Stochopy.C103_same_hmc_partial",
    "Stochopy.C103_point_mcmc_partial",
    "Stochopy.C103_point_hmc_partial",
    "Stochopy.C103_de_violated",
    "Stochopy.C103_cpso_violated",
    "Stochopy.C103_pso_violated",
    "Stochopy.C103_mcmc_violated",
    "Stochopy.C103_hmc_violated"
   ],
   "note": "False for de, cpso, pso, mcmc and hmc, which hand rows of their own arrays to the objective (C103_*_violated: same call, same values, and the reported value is not the value of the reported point). True for na (C103_na), which evaluates a temporary array; cmaes and vdcma evaluate the temporary unstandardize(arxvalid) as well, so their models need no such writes. Partial: no difference if the objective leaves the evaluated points as they are (C103_same_*_partial), in particular for clipping to the bounds with constraints='Random' or 'Shrink' (C103_clip_*_partial); always, the reported value was returned for the reported point or for a point that the objective turned into it, and it is the least value of the run (C103_point_*_partial). Not covered: MPI, and threads that evaluate several rows at once (rows are disjoint)."
  },
  {
   "property": "C104",
   "status": "partial",
   "theorems": [
    "Stochopy.Props.C104_de",
    "Stochopy.Props.C104_cpso",
    "Stochopy.Props.C104_pso",
    "Stochopy.Props.C104_vdcma",
    "Stochopy.Props.C104_mcmc_violated",
    "Stochopy.Props.C104_na_violated",
    "Stochopy.Props.C104_mcmc_partial",
    "Stochopy.Props.C104_hmc"
   ],
   "note": "Proved for de, pso, cpso (all strategies, constraints, updating modes, restarts), vdcma (with and without Penalize) and hmc, with a given or drawn start: the output of the reordered problem is the reordered output, exceptions included (for hmc the evaluations of the central differences come in another order, which C104_hmc says). No seed: the generator starts from the state in which it deals the same numbers in the other order (Deals; C104's generator with explicit lists of numbers, Props/OrderRuns.lean, shows for every dimension and permutation that there is one). False for mcmc with blocks (C104_mcmc_violated: coordinates beyond the first block cannot change in the second sample, whatever the numbers; C104_mcmc_partial: true for perc=1) and for na (C104_na_violated: the walk goes along the first axis first and meets the bisectors in another order, so new models in the reordered problem can lie where no generator puts them in the original one). cmaes: the eigenvectors come out of eigh in an order that need not follow the order of the variables; runs are compared up to rotations, of which permutations are a special case, in C99."
  },
  {
   "property": "C105",
   "status": "proved",
   "theorems": [
    "Stochopy.C105_de",
    "Stochopy.C105_cpso",
    "Stochopy.C105_pso",
    "Stochopy.C105_na",
    "Stochopy.C105_cmaes",
    "Stochopy.C105_vdcma",
    "Stochopy.C105_whole_de",
    "Stochopy.C105_whole_cpso",
    "Stochopy.C105_whole_pso",
    "Stochopy.C105_whole_na",
    "Stochopy.C105_whole_cmaes",
    "Stochopy.C105_whole_vdcma",
    "Stochopy.C105_function_de",
    "Stochopy.C105_function_cpso",
    "Stochopy.C105_function_pso",
    "Stochopy.C105_function_na",
    "Stochopy.C105_function_cmaes",
    "Stochopy.C105_function_vdcma",
    "Stochopy.C105_mcmc",
    "Stochopy.C105_function_mcmc",
    "Stochopy.C105_hmc",
    "Stochopy.C105_function_hmc",
    "Stochopy.C105_runs",
    "Stochopy.C105_chains"
   ],
   "note": "C105_*: the first N + 1 requests; C105_whole_*: the whole outcome of the optimizers (answers may depend on the number of the request, as in C93); C105_function_*: objectives that are functions of the point, about minimize and sample themselves; the samplers are covered for functions only (C105_mcmc, C105_hmc). An exception in the objective is not in the model; since answers after the N-th request are arbitrary, the requests before it are those of any continuation. C105_runs, C105_chains: objectives that differ away from the requested points, and runs that part after a given request."
  },
  {
   "property": "C106",
   "status": "partial",
   "theorems": [
    "Stochopy.C106_scalar_cmaes",
    "Stochopy.C106_scalar_vdcma",
    "Stochopy.C106_cmaes_violated",
    "Stochopy.C106_vdcma_violated",
    "Stochopy.C106_positive_cmaes",
    "Stochopy.C106_positive_vdcma",
    "Stochopy.C106_cmaes_partial",
    "Stochopy.C106_vdcma_partial",
    "Stochopy.C106_two_steps",
    "Stochopy.C106_overwritten_violated",
    "Stochopy.C106_scale_violated"
   ],
   "note": "C106_cmaes_violated, C106_vdcma_violated: every list and every array with more than one entry is rejected (the empty array, too: its treatment depends on the version of NumPy and the model stops there). C106_overwritten_violated: the caller's array after a run of three generations. C106_scale_violated: a run of cmaes that TolXUp stops for the number and not for the array. C106_cmaes_partial, C106_vdcma_partial: the same output if neither run has status -6 or -8; in any case the requests of one run are the first requests of the other. C106_scalar_*: for numbers this model is minimize of the other claims. Arrays without dimension behave like those with one entry and are not listed separately; integer arrays (which `sigma *= ...` rejects) and arrays with two dimensions are not modelled."
  },
  {
   "property": "C107",
   "status": "partial",
   "theorems": [
    "Stochopy.C107_mcmc_kernel",
    "Stochopy.C107_mcmc_kernel_start",
    "Stochopy.C107_hmc_kernel_partial",
    "Stochopy.C107_mcmc",
    "Stochopy.C107_mcmc_x0",
    "Stochopy.C107_mcmc_start",
    "Stochopy.C107_hmc_partial",
    "Stochopy.C107_hmc_x0_partial",
    "Stochopy.C107_mcmc_violated",
    "Stochopy.C107_hmc_violated",
    "Stochopy.C107_mcmc_rate",
    "Stochopy.C107_hmc_rate"
   ],
   "note": "Full claim false for constraints='Reject': nothing is ever accepted and accept_ratio is zero however long the run (C107_mcmc_violated, C107_hmc_violated), while the limit is positive (C107_mcmc_rate, C107_hmc_rate). mcmc (constraints None, all step sizes non-zero, exp(-f) with a finite integral): from a random start (C107_mcmc), from almost every given start for any perc (C107_mcmc_x0), from every start for perc=1 (C107_mcmc_start). hmc without a gradient function: under the condition of C96/C101 (Lipschitz gradient, ((nleap+1)*step)^2*kappa <= 1), from every start (C107_hmc_partial, C107_hmc_x0_partial); longer trajectories are missing. return_all does not matter. The law of large numbers of C101 is proved again for functions of the state and of the next random numbers (Lemmas/AcceptRate.lean). Ideal generator as in C96; exact arithmetic."
  },
  {
   "property": "C108",
   "status": "partial",
   "theorems": [
    "Stochopy.C108_mcmc_answers",
    "Stochopy.C108_mcmc_returns",
    "Stochopy.C108_hmc_answers",
    "Stochopy.C108_hmc_returns",
    "Stochopy.C108_mcmc_total",
    "Stochopy.C108_hmc_total",
    "Stochopy.C108_same_mcmc",
    "Stochopy.C108_same_hmc",
    "Stochopy.C108_hmc",
    "Stochopy.C108_mcmc",
    "Stochopy.C108_hmc_test_violated",
    "Stochopy.C108_hmc_moves"
   ],
   "note": "Full claim false for hmc: it asks again for the current sample before every test and compares with that answer, not with the recorded one (C108_hmc_test_violated: a proposal recorded 100 above the current sample is accepted). mcmc: the chain of pairs (sample, answer), the numbers of the requests, the test and the result are characterised exactly (C108_mcmc); hmc: rows, callbacks, result and nfev (C108_hmc) and, for finite answers, the requests used by the finite differences and the test and the integrator (C108_hmc_moves). C108_same_*: a constant answer function gives sample of the other claims. Model in Model/NoiseSampler.lean: the k-th request is answered by ans k x. C108_*_returns: a call returns, or raises the same exception, for every sequence of answers; C108_*_total says when it returns."
  },
  {
   "property": "C109",
   "status": "partial",
   "theorems": [
    "Stochopy.C109_mcmc_kernel",
    "Stochopy.C109_mcmc",
    "Stochopy.C109_mcmc_random",
    "Stochopy.C109_additive",
    "Stochopy.C109_bias_violated",
    "Stochopy.C109_returns",
    "Stochopy.C109_blocks_kernel",
    "Stochopy.C109_blocks",
    "Stochopy.C109_blocks_x0",
    "Stochopy.C109_blocks_additive",
    "Stochopy.C109_blocks_returns"
   ],
   "note": "The last sentence of the claim is false: with zero-mean noise whose size depends on the point the averages tend elsewhere (C109_bias_violated: cosh 1/(1 + cosh 1) instead of 1/2). Proved: the limit is the mean under the expected weight E exp(-F) (C109_mcmc for a given first sample, C109_mcmc_random for a drawn one), which for noise added to a function is the mean without noise (C109_additive). These are for perc = 1; for every perc the same holds from a random first sample and from almost every given one (C109_blocks, C109_blocks_x0, C109_blocks_additive), like C101 without noise. Constraints other than Reject. hmc is not covered: it asks again for the current sample (C108), so the chain of pairs is not in balance. Independence of the noise and the generator is the product measure in the statement. C109_returns, C109_blocks_returns: the runs in the statements exist."
  },
  {
   "property": "C110",
   "status": "partial",
   "theorems": [
    "Stochopy.C110_same_de",
    "Stochopy.C110_same_cpso",
    "Stochopy.C110_same_pso",
    "Stochopy.C110_cpso",
    "Stochopy.C110_pso",
    "Stochopy.C110_best_de_partial",
    "Stochopy.C110_point_de_partial",
    "Stochopy.C110_value_de_partial",
    "Stochopy.C110_same_mcmc",
    "Stochopy.C110_same_hmc",
    "Stochopy.C110_value_mcmc_partial",
    "Stochopy.C110_value_hmc_partial",
    "Stochopy.C110_de_violated",
    "Stochopy.C110_mcmc_violated",
    "Stochopy.C110_hmc_violated"
   ],
   "note": "False for de with updating='deferred', mcmc and hmc (C110_de_violated, C110_mcmc_violated, C110_hmc_violated: without the write the report is right, with it a reported or recorded point carries the value of another one). True for cpso and pso, whatever is written (C110_cpso with the condition of C01 on restarts, C110_pso). Partial: de reports the least value returned, the records never get worse and the counts are right (C110_best_de_partial); with updating='immediate' the reported pair is an evaluated one (C110_point_de_partial); if the writes keep the value of each point, every pair is right (C110_value_*_partial). Writes that leave what was shown as it is change nothing (C110_same_*). na, cmaes and vdcma hand over temporaries, so their models need no such writes. Writes into the second argument: C111."
  },
  {
   "property": "C111",
   "status": "partial",
   "theorems": [
    "Stochopy.C111_same_de",
    "Stochopy.C111_same_cpso",
    "Stochopy.C111_same_pso",
    "Stochopy.C111_best_de_partial",
    "Stochopy.C111_best_cpso_partial",
    "Stochopy.C111_best_pso_partial",
    "Stochopy.C111_point_de_partial",
    "Stochopy.C111_point_cpso_partial",
    "Stochopy.C111_point_pso_partial",
    "Stochopy.C111_de_violated",
    "Stochopy.C111_pso_violated",
    "Stochopy.C111_cpso_violated",
    "Stochopy.C111_early_violated"
   ],
   "note": "False for de, cpso and pso: state.x is the live array gbest and becomes the x of the result (C111_*_violated: without the write the report is right). With immediate updating even a write before the last call may be reported (C111_early_violated). Partial: with deferred updating only the last call matters (C111_point_*_partial; for de if the population is left alone, C110). Whatever is written into both arrays, fun is the least value returned, the best values never get worse and the counts are right (C111_best_*_partial; cpso with the condition of C01 on restarts). Writes that leave what was shown as it is change nothing (C111_same_*). na, cmaes and vdcma hand over temporaries, so their models need no such writes. Not covered: writes into state.xall and state.funall (views of the histories, which the optimizers do not read again). The samplers' state.x: C112."
  },
  {
   "property": "C112",
   "status": "partial",
   "theorems": [
    "Stochopy.C112_mcmc_partial",
    "Stochopy.C112_hmc_partial",
    "Stochopy.C112_value_mcmc_partial",
    "Stochopy.C112_value_hmc_partial",
    "Stochopy.C112_mcmc_violated",
    "Stochopy.C112_hmc_violated",
    "Stochopy.C112_hmc_best_violated"
   ],
   "note": "False: state.x is the row of the current sample whenever that one is the best so far, so that state.x *= 2 moves the chain (C112_mcmc_violated, C112_hmc_violated); hmc looks for the least element of funall at the end, so that writes into funall change the reported x (C112_hmc_best_violated). Partial: callbacks that leave the row of the current sample as it is do not change the chain, and every row of the result is its sample with the later writes applied (C112_mcmc_partial, C112_hmc_partial; the reported x of hmc if funall is left alone). Callbacks that move points to points of the same value and leave funall alone may write anywhere: recorded and reported values belong to their samples (C112_value_*_partial)."
  },
  {
   "property": "C113",
   "status": "proved",
   "theorems": [
    "Stochopy.C113_de",
    "Stochopy.C113_cpso",
    "Stochopy.C113_pso",
    "Stochopy.C113_na",
    "Stochopy.C113_cmaes",
    "Stochopy.C113_vdcma",
    "Stochopy.C113_mcmc",
    "Stochopy.C113_hmc"
   ],
   "note": "For all optimizers and samplers. What the code does after the callback in the same iteration (restarts of cpso) makes no request and is not visible from outside."
  },
  {
   "property": "C114",
   "status": "proved",
   "theorems": [
    "Stochopy.C114_de",
    "Stochopy.C114_cpso",
    "Stochopy.C114_pso",
    "Stochopy.C114_na",
    "Stochopy.C114_cmaes",
    "Stochopy.C114_vdcma",
    "Stochopy.C114_same",
    "Stochopy.C114_kept"
   ],
   "note": "For de, pso, cpso, na, cmaes and vdcma. The equation C114_<method> describes the whole outcome in terms of the run whose callback writes nothing (Spec/Records.lean); C114_same and C114_kept spell out what it leaves alone. With return_all=False there is nothing to write into. The samplers are C112."
  }
 ]
}