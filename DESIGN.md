# Formal model of stochopy — design

A Lean 4 model of the Python package in `/repo/stochopy` and machine-checked proofs about it.  `properties.jsonl` lists the
properties, `MANIFEST.json` says which theorems settle which property, `AXIOMS.md` lists the axioms of every one of these theorems,
`seeded/LOG.jsonl` records the wrong programs the theorems were tried against.

## Layout

| directory | content |
|---|---|
| `lean/Verif/Base/*`  | floats with NaN and infinities (`Val`), floating point numbers (`F64`), NumPy primitives (argmin, argsort, draws), Python exceptions, the random generator, laws of sqrt/exp/log |
| `lean/Verif/Model/*` | the model, one file per source file or shared frame; every definition cites file and lines |
| `lean/Verif/Lemmas/*`| helper lemmas, never cited as a property |
| `lean/Verif/Spec/*`  | vocabulary of the property statements, written without reference to the helpers of the model |
| `lean/Verif/Props/*` | theorems `Cxx_…`; beside each of them a concrete run or input that meets its hypotheses (`Concrete.*`, `example`) |
| `tools/*` | generators of `properties.jsonl`, `MANIFEST.json` + `Verif.lean`, `AXIOMS.md`; `mutate.py` (wrong programs) and `log_seeded.py` |

Names: `Cxx_…` proves property xx (for one optimizer, if a name follows).  `Cxx_…_violated` proves the negation of the property with a
witness or for every input; the accompanying `Cxx_…_partial` proves what is left of it.  A claim is `partial` in the manifest as soon as
one `_partial` or `_violated` theorem is needed for it.

## Trusted base

* The kernel of Lean 4.33.0, and the compiled Mathlib modules.
* Axioms: `propext`, `Classical.choice`, `Quot.sound` only; no `sorry`, no `native_decide`, no axiom of our own.  Per theorem: `AXIOMS.md`,
  produced from `#print axioms`.
* Faithfulness of the hand-written model to the cited lines, within the limits below.
* The semantics of NumPy, joblib and MPI assumed in `Base/` and in `Model/Common.lean`, `Model/MPI.lean`: `argsort` returns some sorting
  permutation with NaN last (`IsArgsort`; ties arbitrary); `argmin` returns the first NaN, else the first minimum; uniform draws lie in [0, 1),
  `randint(n) < n`, `permutation` permutes (`Rng.Ok`); joblib returns results in the order of submission; `Bcast` copies rank 0's
  array to all ranks and `Allreduce` adds one contribution per rank in some order (`Env.Ok`); `np.linalg.eigh` of a symmetric matrix
  returns orthonormal eigenvectors and eigenvalues (hypothesis `IsEigh` where it is used).

## Modelling decisions

* **Numbers.**  The models only use the operations of a type `K` of numbers and its order, in the order of the code.  They are used at three kinds of `K`:
  an ordered field (exact arithmetic; runs are executable at `ℚ`; statements about sqrt, exp and log use `ℝ` or functions with stated laws,
  `LawfulNumFns`); any `K` at all; and `F64` (Base/F64.lean), binary floating point numbers with 53 bits whose operations round to nearest, ties to even.
  - *Any arithmetic* (theorems with the classes `AddZeroClass K`, `Sub K`, …, `ArrayOps K`): for de, pso, cpso, na: C01–C14
    (except `C06_na`), C23, C24, C27 (except `C27_zero`), C30, C31, C71, C73, C74, C76, C78, C79; for cmaes and vdcma: C01, C04, C05, C08–C11, C14, C23, C38, C40, C73, C74, C76 and repeatability with a seed (C31); for the samplers: C81, C82.  Nothing is assumed of the operations except `0 + x = x` (used by MPI's sum of contributions) and, for cpso, that
    `int((p - 1) / (1 + exp x)) ≤ p - 1` (`FewRestarts`, proved for fields and for `F64`) and, for the samplers, that the logarithm is negative below 1 (`NegativeLog`); reductions (`np.sum`, `np.dot`, `np.linalg.norm`), roots, exponentials, logarithms and powers are arbitrary functions.
    These theorems hold for doubles as they are rounded by the machine.
  - *Rounded arithmetic* (class `RoundedOps`, proved for fields and for `F64`): the box invariants of de and na (`de_staysInBox`, `na_staysInBox`, C84, C86); the first sample of the samplers (C88).
  - *Floating point* (`F64`): C83–C87, C89, C94 (`CancelOps`).  `F64` has no bounds on the exponent: no overflow, no underflow, no subnormal numbers; the two zeros are identified.
  - *Exact arithmetic* (`Field K`): everything else, in particular the other statements about cmaes, vdcma and the samplers.  There, rounding is not modelled.

  Decimal literals are the numbers they spell, rounded if `K` is `F64` (`1e30` is 10^30, `2.7182818284590451` is that rational).
* **Objective values** are `Val K = nan | ninf | fin k | pinf` with IEEE comparison and arithmetic, since NaN and infinity decide which
  branch the selection code takes.  HMC's positions and momenta are `Val` too, being computed from objective values.  The Gaussian models of
  `cmaes`/`vdcma` are finite; an operation that would leave the finite numbers (division by zero, root or logarithm of a negative number) ends
  the model run with `unmodelled`.  C66 shows that this never happens in `cmaes` and says exactly when it happens in `vdcma`.
* **Arrays** of shape `(p, n)` are functions `Fin p → Fin n → K`; user supplied arrays are `NdArr` (shape and entries) and are validated
  in the order of the code.
* **Exceptions** are values (`Except PyErr`).
* **Loops** take fuel; `outOfFuel` is "still running", not a Python exception.  Termination is a theorem (C05), not an assumption.
* **Randomness** is an arbitrary generator `Rng σ K` whose state is threaded in code order; theorems hold for every generator, hence
  for every sequence of draws.  Only C45, C65, C68, C95, C96, C97, C98, C99, C100, C101, C102, C107, C109 speak about probability: independent draws are then an explicit hypothesis
  (C96, C97, C101, C102, C107, C109: `Ideal R Q` in `Spec/Ideal.lean`, the numbers drawn from a random state are independent with the laws asked for; `stream_ideal`
  gives a generator that has it).
* **The objective** is a function of the point (with `args` applied).  Every call is logged in `evals`, every callback in `cbs`; a callback
  or objective that has other side effects or raises is not modelled.  An objective that overwrites its
  argument is the subject of C103 (`Model/InPlace.lean`: `wr x` is what the array holds after the call); everywhere else `wr x = x`.
  A callback that overwrites its first argument is the subject of C110 (`Model/CallbackWrites.lean`: `wr k X` after the `k`-th call),
  one that also overwrites `state.x` of C111 (`Model/StateWrites.lean`), and one of a sampler that overwrites rows of `xall`, `funall` of C112
  (`Model/HistoryWrites.lean`); callbacks that raise are those of C113 (`Model/Raise.lean`); callbacks of optimizers that write into the history are those of C114 (`Model/Records.lean`);
  everywhere else callbacks only read.
* **Aliasing**: writes into the caller's `x0` and `stepsize` are tracked (C30, C55), writes into the populations that a callback was given are
  tracked by the memory of `Model/Alias.lean` (C90; `de`, `pso`, `cpso`, `na`), uninitialised memory (`np.empty`) is a parameter `junk` (C31).
* **Processes**: `Model/MPI.lean` runs one copy of the program per rank; the other files describe a single process, or rank 0.

## What is modelled

| source (under `/repo/stochopy`) | lines | model |
|---|---|---|
| `_common.py` (`BaseResult`) | 1–35, all | `Model/Result.lean`, `Model/PyDict.lean` |
| `optimize/_helpers.py` (`minimize`, `register`) | 8–94 | `Model/Helpers.lean` |
| `optimize/_common.py` (`messages`, `prefer`, `optimizer`, `lhs`, `selection_sync`, `selection_async`) | 6–194, all | `Model/Common.lean`; several ranks: `Model/MPI.lean` |
| `optimize/de/_de.py`, `_strategy.py`, `_constraints.py` | all | `Model/DE.lean`, `Model/Driver.lean` |
| `optimize/cpso/_cpso.py`, `_constraints.py`, `optimize/pso/_pso.py` | all | `Model/CPSO.lean`, `Model/Driver.lean` |
| `optimize/na/_na.py` | all | `Model/NA.lean`, `Model/Driver.lean` |
| `optimize/cmaes/_cmaes.py`, `_constraints.py` | all (`converge`, `Penalize` included) | `Model/Evo.lean`, `Model/CMAES.lean` |
| `optimize/vdcma/_vdcma.py` | all | `Model/Evo.lean`, `Model/VDCMA.lean` |
| default arguments of all functions | signatures | `Model/Defaults.lean`, `Model/Helpers.lean` (names) |
| `sample/_helpers.py` | 8–83 | `Model/Helpers.lean` |
| `sample/_common.py`, `sample/mcmc/_mcmc.py` | all | `Model/Sampling.lean`, `Model/MCMC.lean` |
| `sample/hmc/_hmc.py` | all | `Model/Sampling.lean`, `Model/HMC.lean` |
| `factory/benchmark.py` | all | `Model/Benchmark.lean` |
| the same optimizers under `mpirun` | | `Model/MPI.lean` |
| `de`, `pso`, `cpso`, `na` with the arrays passed to the callback | | `Model/Alias.lean` |
| `de`, `pso`, `cpso` on an integer array or a nested list as `x0` | | `Model/Dtype.lean` |
| all optimizers with an objective that returns integers | | `Model/IntFun.lean` |
| all optimizers with an objective whose answers change (noise, state) | | `Model/Noise.lean` |
| both samplers with an objective whose answers change (noise, state) | | `Model/NoiseSampler.lean` |
| `de`, `pso`, `cpso`, `na`, `mcmc`, `hmc` with an objective that overwrites its argument | | `Model/InPlace.lean` |
| `de`, `pso`, `cpso`, `mcmc`, `hmc` with a callback that overwrites its first argument | | `Model/CallbackWrites.lean` |
| `de`, `pso`, `cpso` with a callback that overwrites the population and `state.x` | | `Model/StateWrites.lean` |
| `mcmc`, `hmc` with a callback that overwrites rows of the history (`state.x`, `state.xall`, `state.funall`) | | `Model/HistoryWrites.lean` |
| all optimizers and samplers with a callback that raises | | `Model/Raise.lean` |
| all optimizers with a callback that writes into `state.xall`, `state.funall` | | `Model/Records.lean` |
| the first generation of `cmaes` and `vdcma` from `x0` where `standardize` divides by zero | | `Model/FirstGen.lean` |
| `cmaes`, `vdcma` with a list or an array as `sigma` | | `Model/SigmaArg.lean` |

## What is not modelled

* Rounding except where stated above, overflow, wall-clock time, memory; the content of docstrings; `__about__.py`, `__init__.py` re-exports (other than which optimizers
  get registered), `doc/`, `tests/`, `tasks.py`, `.github/`.
* Objectives are functions of the point, except in C93 and C108 (`Model/Noise.lean`, `Model/NoiseSampler.lean`), where the answer may also depend on the number of requests made so far
  and therefore be random or stateful.  Not covered: objectives that raise (C105 says what an objective that raises has seen; callbacks that raise: C113), draw from NumPy's global generator, callbacks that reach the unused rows of the history through `state.xall.base`
  (callbacks that write into the population: C110; `state.x`: C111; the history of the samplers: C112, of the optimizers: C114; arrays kept by the callback: C90; objectives that modify theirs: C103); `args` (absorbed into the objective).
* Internals of joblib (processes, pickling) and of MPI; NumPy's and SciPy's algorithms.
* Types: `bounds`, `x0` and the numeric options have the documented type.  `x0` given as an integer array or nested list is modelled
  separately (`Model/Dtype.lean`, C91; everything else assumes floats), and so are objectives that return integers at some or all points
  (`Model/IntFun.lean`, C92).  Not covered: both at once, integers beyond int64, infinities and NaNs written into an array of integers (`sigma` given as an array: C106), `stepsize` of more than one dimension.
* Options that only matter through unmodelled failure: `mu = 0` parents (`muperc * popsize < 1`) gives empty weights and NaNs in the code and
  `unmodelled` here; hypotheses `1 ≤ mu` appear where needed.
* `ackley` of an empty array (ZeroDivisionError).
* NumPy versions: `np.percentile` interpolates as in NumPy ≥ 1.22; `np.Inf` requires NumPy < 2.
* `x ** e` with a non-integer `e` is a function `NumFns.pow`; the dot product of the penalties (which may be NaN or infinite) is added from left to right; `ilim` and the exponent in `cond` (lines 221 and 283 of `_cmaes.py`) are computed with natural numbers; maxima and minima in `converge` are written with quantifiers; `np.linalg.norm(v) <= t` is `0 ≤ t ∧ ∑ v² ≤ t²` where no square root is available.

## Findings (properties the code violates)

| property | what happens | theorem |
|---|---|---|
| C07 | with immediate updating the status of a particle that is followed by others in the same generation is lost: success does not match fun ≤ ftol | `C07_*_violated` |
| C12 | `de`: `funall` holds the values of rejected trial vectors | `C12_de_violated` |
| C13 | `na`: `xall[0]` is in unit-cube coordinates | `C13_na_violated` |
| C14 | `maxiter = 1`: de, pso, cpso, na run two generations (IndexError with `return_all`) | `C14_*_violated` |
| C19 | the Latin hypercube only reaches the lower half of each slice | `C19_violated` |
| C25 | an unknown backend name is silently accepted | `C25_violated` |
| C29, C72 | `na` with `lower = upper` in some dimension: the walk leaves the Voronoi cell | `C29_na_violated`, `C72_na_violated` |
| C30 | de and immediate cpso/pso overwrite the caller's `x0` | `C30_violated` |
| C31 | cmaes/vdcma with `Penalize` and `x0` outside the bounds read uninitialised memory | `C31_violated` |
| C37 | NaN values make the penalty computation raise or make feasible candidates NaN | `C37_violated` |
| C38 | cmaes/vdcma return the best of the last generation, not of the run | `C38_violated` |
| C39 | the tests −5 and −7 compare with unfilled zeros; vdcma never reports −2, −4 | `C39_*_violated` |
| C42 | vdcma does not adapt at all for ndim ≤ 5 | `C42_violated` |
| C46 | mcmc accepts proposals with NaN value | `C46_mcmc_violated` |
| C47 | `constraints="Reject"`: `in_search_space` returns None, every proposal is rejected | `C47_*_violated` |
| C48 | mcmc never considers the first sample for the returned best | `C48_mcmc_violated` |
| C49 | mcmc with `perturb` not dividing ndim raises ValueError | `C49_violated` |
| C51 | hmc with a callable `jac` always raises | `C51_violated` |
| C54 | callbacks of the samplers get a history that is one sample short | `C54_*_violated` |
| C55 | a float array `stepsize` is scaled in place | `C55_*_violated` |
| C57 | ackley (literal e), styblinski_tang (constant), 1-D rosenbrock | `C57_*_violated` |
| C59 | `na` with its default `callback=True` always raises | `C59_na_violated` |
| C60 | weights never grow below the lower bound | `C60_lower_violated` |
| C63 | an integer `stepsize` raises TypeError | `C63_*_violated` |
| C64 | hmc makes `nleap + 1` leap-frog steps | `C64_violated` |
| C66 | vdcma with `popsize = 1` raises IndexError in the second generation; it divides by zero where the mean does not move | `C66_violated`, `C66_vdcma_partial` |
| C71 | cpso restart writes the constant 1e30 as a value and later compares with it | `C71_cpso_violated` |
| C72 | cpso restart compares a length with a number without unit | `C72_cpso_violated` |
| C76 | without a seed the ranks of an MPI run disagree (all but de); cmaes can deadlock | `C76_*_violated`, `C76_cmaes_deadlock_violated` |
| C83 | `Shrink` in doubles: points a rounding error outside the bounds, from where the next step may go far outside (or divide by zero: NaN, not modelled) | `C83_*_violated` |
| C84 | `na` in doubles evaluates points above the upper bound, and not the rows of `x0` | `C84_na_violated` |
| C85 | the Latin hypercube in doubles may fall below the lower bound | `C85_lhs_violated` |
| C87 | hmc's numerical gradient in doubles: coordinates are not restored, later derivatives are taken elsewhere | `C87_*_violated` |
| C89 | `Penalize` in doubles: points a rounding error outside the bounds are evaluated and returned; a point strictly inside may carry a penalised value | `C89_*_violated` |
| C90 | `de`, the swarms with immediate updating, and the restarts of `cpso` write into the array that the callback was given: a callback that stores `X` ends up with copies of the last population | `C90_*_violated` |
| C91 | `x0` is used as it is: with an integer array `de`, `pso` and `cpso` truncate the points they store, report (deferred) a value that does not belong to the reported point, and leave the box although `Shrink` is on; with a nested list they raise | `C91_*_violated`, `C91_lists_raise` |
| C92 | If all initial values are Python integers, `pbestfit` is an array of integers: `de`, `pso`, `na` (deferred) report a truncated value for the solution and stop early, the history is truncated in immediate mode, a restart of `cpso` writes the smallest integer for `1.0e30` and reports it as the minimum, and `Penalize` (`cmaes`, `vdcma`) raises for every objective that always returns integers | `C92_*_violated`, `C92_penalize_raises` |
| C94 | a variable with equal bounds is NaN in the whole first generation of `cmaes` and `vdcma` when `x0` is given; `hmc` evaluates the objective off its value, and produces NaN samples if the objective is infinite there | `C94_firstGen_violated`, `C94_hmc_*violated` |
| C95 | `hmc` can be periodic (sum of squares, steps of size 1, `nleap=1`: every trajectory from `q` ends in `-q`, whatever the momentum), so it never visits anything else; `Reject` never leaves the start | `C95_hmc_violated`, `C95_hmc_kernel_violated`, `C95_reject_violated` |
| C96 | a constant objective in three or more variables (`perc=1`, no constraints): `mcmc` leaves the search space for good with probability one; the periodic `hmc` chain of C95 visits nothing but its two points; `mcmc` with two blocks, objective `\|z\|² exp \|y\|²`, start in the origin: with probability at least 31/32 never off the plane `z = 0` | `C96_flat_violated`, `C96_hmc_violated`, `C96_mcmc_x0_violated` |
| C101 | the periodic `hmc` chain of C95: averages over the samples miss the mean under `exp(-f)` however long the run; `Reject` (all samples equal); `mcmc` with blocks from an exceptional start, as in C96 | `C101_hmc_violated`, `C95_reject_violated`, `C101_mcmc_x0_violated` |
| C102 | the periodic `hmc` chain of C95: no sample, however late, enters a half-line of positive probability under `exp(-f)`; `Reject`; `mcmc` with blocks from an exceptional start, as in C96 | `C102_hmc_violated`, `C95_reject_violated`, `C102_mcmc_x0_violated` |
| C103 | objectives that overwrite their argument: `de`, `cpso`, `pso`, `mcmc`, `hmc` report values of points other than the reported ones | `C103_de_violated`, `C103_cpso_violated`, `C103_pso_violated`, `C103_mcmc_violated`, `C103_hmc_violated` |
| C104 | `mcmc` with blocks and `na` treat the first variables first: with the variables in another order they reach points that no random numbers give in the original order | `C104_mcmc_violated`, `C104_na_violated` |
| C106 | `sigma` as a list or an array with several entries (documented) is rejected by `cmaes` and `vdcma`; an array with one entry is overwritten, and `insigma = sigma` makes `TolXUp` and `TolX` compare the step size with itself | `C106_cmaes_violated`, `C106_vdcma_violated`, `C106_overwritten_violated`, `C106_scale_violated` |
| C107 | `Reject`: `accept_ratio` is zero however long the run, the mean acceptance probability is positive | `C107_mcmc_violated`, `C107_hmc_violated` |
| C108 | noisy objectives: hmc compares the proposal with a second answer for the current sample, not with the recorded one | `C108_hmc_test_violated` |
| C109 | zero-mean noise whose size depends on the point moves the limit of mcmc's averages | `C109_bias_violated` |
| C110 | a callback that overwrites the array it is shown: deferred `de`, `mcmc`, `hmc` report or record values of other points | `C110_de_violated`, `C110_mcmc_violated`, `C110_hmc_violated` |
| C111 | `state.x` is the live array of the best solution in `de`, `cpso`, `pso`: a callback that overwrites it changes the reported `x` | `C111_de_violated`, `C111_cpso_violated`, `C111_pso_violated`, `C111_early_violated` |
| C112 | `state.x`, `state.xall`, `state.funall` of the samplers are views of the live history: writing into `state.x` moves the chain when the current sample is the best one, writing into `state.funall` changes which sample `hmc` reports | `C112_mcmc_violated`, `C112_hmc_violated`, `C112_hmc_best_violated` |
| C97 | inertia 1 (accepted, the original parameters of PSO): the particle that holds the best point of the swarm never comes to rest in it; a particle whose best point is not that of the swarm comes to rest nowhere, whatever the parameters | `C97_inertia_violated`, `C97_apart_violated` (and `…_kernel_violated`) |
| C98 | the Latin hypercube lies in the lower half of its cells, so without `x0` the reflected problem is never searched at the mirror images; 'Penalize' treats means above the upper and below the lower bounds differently | `C98_de_violated`, `C98_pso_violated`, `C98_cpso_violated`, `C98_na_violated`, `C98_cmaes_violated`, `C98_vdcma_violated` |

## How the proofs go

| ids | subject | method |
|---|---|---|
| C01–C14 | results, histories, callbacks, counts, statuses of the optimizers | invariants of the loop (`run_chain`, `minimize_run`), for all populations, iterations and draws |
| C15–C22 | constraint handlers, Latin hypercube, DE operators | case analysis, permutations, arithmetic of slices |
| C23–C25, C76 | workers, backends, MPI ranks | equality of programs; simulation between the ranks and a sequential run |
| C26–C29, C61 | restarts, pso = cpso without restarts, swarm equation, neighbourhood walk | sorting spec, program equality, invariant of the walk |
| C30, C31, C55 | caller's arrays, reproducibility, memory | tracked buffers, congruence of whole runs |
| C32–C34, C62, C63 | validation, registry, result objects, samplers' validation | unfolding, induction over operation histories |
| C35–C42, C58, C60, C65–C70, C75, C77 | CMA-ES and VD-CMA | equations of whole runs, positive definiteness as a loop invariant, expectation of adapted matrices, natural gradient from the Fisher matrix, penalty recursion |
| C43–C54, C56, C64 | samplers | chain invariants, detailed balance, volume preservation and reversibility of leap-frog |
| C57 | benchmark functions | real analysis |
| C78–C80 | complete descriptions of runs of de, pso, cpso, na | the run satisfies a description without reference to the model; the description has at most one solution (induction over generations) |
| C81, C82 | complete descriptions of runs of mcmc, hmc | the same for the chains (induction over iterations); description in Spec/SamplerRun.lean |
| C71–C74 | invariance under changes of values, units, options | simulation relations between two runs |
| C83–C88 | bounds and derivatives in floating point arithmetic | relative error and monotonicity of rounding; invariants from the laws that survive rounding; runs at `F64` as witnesses |
| C98–C100, C104 | reflections, rotations, order of the variables | simulation between the run and its image; a generator that deals the image of the numbers |
| C105 | requests depend only on earlier answers | relation between two programs that ask the same questions until an answer differs, closed under sequencing, branches and loops |
| C106 | step sizes given as arrays | two loops that differ in one argument of `converge`, compared by induction |
| C107 | limit of `accept_ratio` | the ergodic theorem of C101 for functions of the state and of the next random numbers; Fubini's theorem for the acceptance probability |
| C108 | samplers with noisy objectives | invariant of the loop over pairs (sample, answer) and the numbers of their requests |
| C109 | independent noise in the objective | detailed balance of the chain of pairs (noise, sample), marginal of its stationary law, law of large numbers from every start (`perc=1`), from almost every start for blocks of any size (reachability of a whole round by induction over the blocks) |
| C110 | callbacks that write | the frame of the optimizers with the write composed with `step` and `post` (`Alg.writing`); invariants that hold under any change of `X` (`Keeps`); comparison of the two loops state by state |
| C111 | callbacks that write into `state.x` | as C110; two invariants, one that survives the writes and one that every selection restores (`Alg.Hist.last_writing`) |
| C112 | sampler callbacks that write into the history | simulation of the run without writes (`Rel`): everything but the older rows agrees, and every row is its sample with the later writes applied (`Rewrites`) |
| C113 | callbacks that raise | induction on the iterations, comparing the two runs after every call (`Goes`); the code itself catches nothing, so the model adds one test after each call (`stopOr`) |
| C114 | callbacks that write into the history (optimizers) | induction on the iterations: the loop variables of the two runs differ only in the rows and in what the calls are shown (`Loop.edit`), one row and one call per iteration (`EvenRows`) |
