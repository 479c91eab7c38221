{"id": "C01", "title": "Reported value belongs to the reported point (population optimizers)", "statement": "If minimize with method 'de', 'pso', 'cpso' or 'na' returns, then result.fun is exactly the objective evaluated at result.x, and result.x is one of the points on which the objective was called. (For 'cpso' with restarts this needs the best initial value to be below 1e30, the value the code writes into restarted particles.)", "quantifier": "every objective (NaN and infinite values included), bounds, x0, option values, updating mode and sequence of random draws", "why_tests_cant": "The claim is about every trajectory of a randomised loop; a test sees one seed and one smooth objective.", "anchors": ["stochopy/optimize/de/_de.py: de, de_sync, de_async", "stochopy/optimize/cpso/_cpso.py: cpso, pso_sync, pso_async, restart", "stochopy/optimize/na/_na.py: na", "stochopy/optimize/_common.py: selection_sync, selection_async"]}
{"id": "C02", "title": "The returned point is the best point ever evaluated", "statement": "If no member of the initial population has a NaN value, minimize ('de','pso','cpso','na') returns a fun that is <= every non-NaN objective value seen during the whole run.", "quantifier": "every objective, every run length, every random sequence, both updating modes", "why_tests_cant": "Requires an invariant through all iterations, ties, restarts and NaN candidates.", "anchors": ["stochopy/optimize/_common.py: selection_sync, selection_async", "stochopy/optimize/cpso/_cpso.py: restart"]}
{"id": "C03", "title": "Best value never gets worse from one callback to the next", "statement": "The sequence of state.fun values handed to the callback by 'de','pso','cpso','na' is non-increasing and the final result.fun is the last of them.", "quantifier": "every objective without NaN on the initial population, every random sequence, any number of iterations", "why_tests_cant": "Monotonicity over all histories is an inductive statement.", "anchors": ["stochopy/optimize/de/_de.py: de", "stochopy/optimize/cpso/_cpso.py: cpso", "stochopy/optimize/na/_na.py: na"]}
{"id": "C04", "title": "nfev counts the objective calls exactly", "statement": "For every optimizer, result.nfev equals the number of times the objective was called and equals popsize * nit; every callback state satisfies state.nfev = popsize * state.nit.", "quantifier": "all runs of all optimizers", "why_tests_cant": "A counter can only be shown exact for every run by induction over iterations.", "anchors": ["stochopy/optimize/de/_de.py: de", "stochopy/optimize/cpso/_cpso.py: cpso", "stochopy/optimize/na/_na.py: na", "stochopy/optimize/cmaes/_cmaes.py: cmaes", "stochopy/optimize/vdcma/_vdcma.py: vdcma"]}
{"id": "C05", "title": "Termination within the iteration budget", "statement": "minimize terminates on every input; 'de','pso','cpso','na' return with 2 <= nit <= max(2, maxiter), 'cmaes' and 'vdcma' with 1 <= nit <= maxiter.", "quantifier": "every objective, tolerance, random sequence and maxiter", "why_tests_cant": "Non-termination cannot be observed by a finite test and the loop is guarded only by the status computed inside it.", "anchors": ["stochopy/optimize/_common.py: selection_sync", "stochopy/optimize/de/_de.py: de_async", "stochopy/optimize/cpso/_cpso.py: pso_async", "stochopy/optimize/cmaes/_cmaes.py: converge"]}
{"id": "C06", "title": "success/status/message are faithful (deferred updating)", "statement": "With updating='deferred' (always for 'na'): success is True iff status is 0 or 1 iff fun <= ftol; status -1 means fun is not <= ftol and nit >= maxiter; message is the documented text of status; status 0 additionally means that the best point moved by at most xtol in the last iteration.", "quantifier": "all runs in deferred mode", "why_tests_cant": "The status is computed from a chain of conditions on data that depends on the whole history.", "anchors": ["stochopy/optimize/_common.py: messages, selection_sync"]}
{"id": "C07", "title": "success/status are faithful (immediate updating)", "statement": "With updating='immediate', success is True iff the returned fun is <= ftol.", "quantifier": "all runs in immediate mode", "why_tests_cant": "The status of every individual but the last one is overwritten in the loop; only an adversarial schedule of improvements shows it.", "anchors": ["stochopy/optimize/_common.py: selection_async", "stochopy/optimize/de/_de.py: de_async", "stochopy/optimize/cpso/_cpso.py: pso_async"]}
{"id": "C08", "title": "A run stops at the first generation that reaches ftol (deferred updating)", "statement": "In deferred mode no callback after the initial one, except the last, reports a fun <= ftol: the run stops at the first generation (from the second on) whose best value is <= ftol.", "quantifier": "all deferred runs of 'de','pso','cpso','na'", "why_tests_cant": "Needs the relation between all intermediate states and the stopping test.", "anchors": ["stochopy/optimize/_common.py: selection_sync", "stochopy/optimize/de/_de.py: de"]}
{"id": "C09", "title": "Callback protocol", "statement": "The callback is called exactly nit times; the k-th call carries nit = k and nfev = k*popsize; the last call carries the same x, fun, nit, nfev (and xall/funall) as the returned result.", "quantifier": "all runs of all six optimizers", "why_tests_cant": "Holds for every length of run and every early stop.", "anchors": ["stochopy/optimize/de/_de.py: de", "stochopy/optimize/cpso/_cpso.py: cpso", "stochopy/optimize/na/_na.py: na", "stochopy/optimize/cmaes/_cmaes.py: cmaes", "stochopy/optimize/vdcma/_vdcma.py: vdcma"]}
{"id": "C10", "title": "Shape of the recorded history", "statement": "With return_all=True the result holds xall and funall with exactly nit entries, each entry having max(1, ceil(verbosity*popsize)) solutions; without return_all they are absent; verbosity > 1 raises ValueError for 'de','pso','cpso','na'.", "quantifier": "every maxiter, popsize, verbosity, every early stop", "why_tests_cant": "Array lengths depend on when the run stops.", "anchors": ["stochopy/optimize/de/_de.py: de", "stochopy/optimize/cpso/_cpso.py: cpso", "stochopy/optimize/na/_na.py: na", "stochopy/optimize/cmaes/_cmaes.py: cmaes"]}
{"id": "C11", "title": "Recorded values match recorded points (pso/cpso/cmaes/vdcma)", "statement": "For 'pso','cpso' (and 'cmaes','vdcma' without constraints) with return_all=True, funall[k][i] is the objective at xall[k][i] for every generation k and every i.", "quantifier": "all runs, every generation, every individual", "why_tests_cant": "Needs the population/value pairing to be kept through every in-place update.", "anchors": ["stochopy/optimize/cpso/_cpso.py: cpso", "stochopy/optimize/cmaes/_cmaes.py: cmaes", "stochopy/optimize/vdcma/_vdcma.py: vdcma"]}
{"id": "C12", "title": "Recorded values match recorded points (de)", "statement": "For 'de' with return_all=True, funall[k][i] is the objective at xall[k][i].", "quantifier": "all runs, every generation, every individual", "why_tests_cant": "The mismatch only shows when a trial vector is rejected, and no test compares the two arrays.", "anchors": ["stochopy/optimize/de/_de.py: de, de_sync, de_async"]}
{"id": "C13", "title": "Recorded values match recorded points (na)", "statement": "For 'na' with return_all=True, funall[k][i] is the objective at xall[k][i] and all recorded points lie in the bounds.", "quantifier": "all runs, every generation, every individual", "why_tests_cant": "The first generation is recorded through a different code path from the others.", "anchors": ["stochopy/optimize/na/_na.py: na"]}
{"id": "C14", "title": "maxiter=1 is honoured", "statement": "minimize with maxiter=1 performs one generation and, with return_all=True, returns a history of one entry.", "quantifier": "every objective, bounds, option set with maxiter=1", "why_tests_cant": "Boundary value of a loop whose test runs after the increment; behaviour must be known for every other option.", "anchors": ["stochopy/optimize/de/_de.py: de", "stochopy/optimize/cpso/_cpso.py: cpso", "stochopy/optimize/na/_na.py: na", "stochopy/optimize/cmaes/_cmaes.py: cmaes"]}
{"id": "C15", "title": "DE with constraints='Random' never evaluates an infeasible point", "statement": "With constraints='Random' and x0 absent or inside the bounds, every point on which the objective is called, every recorded point and result.x lie inside the bounds.", "quantifier": "every objective, strategy, mutation/recombination constant, random sequence", "why_tests_cant": "An invariant over every generation; the test suite checks one seed.", "anchors": ["stochopy/optimize/de/_constraints.py: Random", "stochopy/optimize/de/_de.py: de_sync, de_async"]}
{"id": "C16", "title": "PSO/CPSO with constraints='Shrink' never evaluates an infeasible point", "statement": "With constraints='Shrink' and x0 absent or inside the bounds, every point on which the objective is called and result.x lie inside the bounds (exact arithmetic).", "quantifier": "every objective, inertia, acceleration, competitivity, random sequence, both updating modes", "why_tests_cant": "Needs the invariant that each particle is feasible before each move, restarts included.", "anchors": ["stochopy/optimize/cpso/_constraints.py: Shrink", "stochopy/optimize/cpso/_cpso.py: mutation, restart"]}
{"id": "C17", "title": "Shrink keeps the particle on its trajectory and shrinks no more than needed", "statement": "For a feasible position and any velocity, Shrink returns position + b*velocity and velocity b*velocity with one b in [0,1]; b = 1 when the unconstrained move is feasible; otherwise no larger b in [0,1] is feasible.", "quantifier": "every feasible position, every velocity, every box, every dimension", "why_tests_cant": "Universal geometric statement over all vectors.", "anchors": ["stochopy/optimize/cpso/_constraints.py: Shrink"]}
{"id": "C18", "title": "Latin Hypercube initial population", "statement": "Without x0 the initial population has, in every coordinate, exactly one member in each of the popsize equal slices of [lower, upper], and every member is inside the bounds.", "quantifier": "every popsize, dimension, bounds and random sequence", "why_tests_cant": "Quantifies over all permutations and uniform draws.", "anchors": ["stochopy/optimize/_common.py: lhs"]}
{"id": "C19", "title": "Latin Hypercube sampling can reach the whole search space", "statement": "Every point of [lower, upper) in a slice can be drawn by the initial Latin Hypercube sampling.", "quantifier": "every point of the search interval", "why_tests_cant": "Absence of samples in a region cannot be established by sampling.", "anchors": ["stochopy/optimize/_common.py: lhs"]}
{"id": "C20", "title": "DE donors are distinct and exclude the target", "statement": "For every individual the donor indices used by the mutation strategy are pairwise distinct, different from the individual's own index and valid; the run raises IndexError exactly when the population is too small for the strategy (popsize < 4, 6, 3, 5 for rand1bin, rand2bin, best1bin, best2bin).", "quantifier": "every popsize, strategy, individual, generation, shuffle", "why_tests_cant": "Over all permutations; validation accepts popsize >= 2 only.", "anchors": ["stochopy/optimize/de/_de.py: delete_shuffle_sync, delete_shuffle_async", "stochopy/optimize/de/_strategy.py"]}
{"id": "C21", "title": "DE trial vectors are binomial crossovers of parent and mutant", "statement": "Each evaluated trial vector takes every coordinate either from the parent or from the mutant given by the documented strategy formula, takes at least one from the mutant, and with recombination=1 takes all from the mutant (constraints=None).", "quantifier": "every individual, generation, strategy, random sequence", "why_tests_cant": "Universal over draws.", "anchors": ["stochopy/optimize/de/_de.py: de_sync, de_async", "stochopy/optimize/de/_strategy.py"]}
{"id": "C22", "title": "Elitism of every individual", "statement": "In DE the value of every population member never increases from a generation to the next, and a member only changes to the trial vector evaluated for it in that generation; the same holds for personal bests in PSO without restart.", "quantifier": "all runs, all individuals", "why_tests_cant": "Inductive over history.", "anchors": ["stochopy/optimize/_common.py: selection_sync, selection_async"]}
{"id": "C23", "title": "Parallel backends do not change the result", "statement": "For 'de','pso','cpso','na','cmaes','vdcma': any workers not in {0,1} with backend None/'threading'/'loky', or backend='mpi' with any number of ranks, returns exactly the outcome of the serial run with updating='deferred' (same exceptions included, mpi4py installed).", "quantifier": "every input, every number of workers and ranks", "why_tests_cant": "Must hold for every number of workers/ranks, every population size.", "anchors": ["stochopy/optimize/_common.py: optimizer"]}
{"id": "C24", "title": "MPI work distribution evaluates every candidate exactly once", "statement": "With backend='mpi' the candidates are partitioned over the ranks: every candidate is evaluated by exactly one rank, and the all-reduced vector holds the objective value of each candidate, in any reduction order.", "quantifier": "every population size, number of ranks, reduction order, objective value (NaN/inf included)", "why_tests_cant": "Quantifies over all process counts.", "anchors": ["stochopy/optimize/_common.py: optimizer (mpi wrapper)"]}
{"id": "C25", "title": "Unknown backends are rejected", "statement": "minimize with a backend other than None,'loky','threading','mpi' raises ValueError.", "quantifier": "every backend string and number of workers", "why_tests_cant": "The check sits in a branch that must be shown reachable.", "anchors": ["stochopy/optimize/_common.py: optimizer"]}
{"id": "C26", "title": "CPSO restart keeps the best and restarts only the worst", "statement": "A CPSO restart resets at most popsize-2 particles, never the one holding the smallest personal-best value, only particles whose personal best is at least as bad as every kept one; reset particles are re-drawn inside the bounds with zero velocity.", "quantifier": "every swarm, iteration, competitivity, argsort tie-breaking", "why_tests_cant": "Ties and NaNs in the sort order; all swarm sizes.", "anchors": ["stochopy/optimize/cpso/_cpso.py: restart"]}
{"id": "C27", "title": "PSO is CPSO without competition", "statement": "minimize(method='pso') returns the same outcome as method='cpso' with competitivity=None, and as competitivity=0.", "quantifier": "all inputs", "why_tests_cant": "Whole-program equality.", "anchors": ["stochopy/optimize/pso/_pso.py: minimize", "stochopy/optimize/cpso/_cpso.py: minimize, cpso"]}
{"id": "C28", "title": "NA never evaluates an infeasible point and pins fixed variables", "statement": "For 'na' with x0 absent or inside the bounds (lower <= upper), every evaluated point and result.x lie inside the bounds; coordinates with lower == upper always equal that value.", "quantifier": "every objective, bounds, random sequence", "why_tests_cant": "Invariant through a coordinate-wise random walk with divisions by zero.", "anchors": ["stochopy/optimize/na/_na.py: na, mutation"]}
{"id": "C29", "title": "NA samples inside the Voronoi cell of a good model", "statement": "Each new NA model lies in the Voronoi cell (within the set of all models evaluated so far, normalised coordinates) of one of the nr best models.", "quantifier": "every set of models, every dimension, every random sequence", "why_tests_cant": "Geometric invariant of an incremental distance update.", "anchors": ["stochopy/optimize/na/_na.py: mutation"]}
{"id": "C30", "title": "User data is not modified (x0)", "statement": "minimize does not modify the array passed as x0.", "quantifier": "every run of every optimizer", "why_tests_cant": "Aliasing: the population may be the caller's array.", "anchors": ["stochopy/optimize/de/_de.py: de", "stochopy/optimize/cpso/_cpso.py: cpso", "stochopy/optimize/na/_na.py: na"]}
{"id": "C31", "title": "A seed makes the outcome reproducible", "statement": "With a seed, the outcome of minimize and sample does not depend on the state of the global random generator before the call.", "quantifier": "every generator state, every input", "why_tests_cant": "Over all prior generator states.", "anchors": ["stochopy/optimize/de/_de.py: minimize", "stochopy/optimize/cpso/_cpso.py: minimize", "stochopy/optimize/na/_na.py: minimize", "stochopy/sample/mcmc/_mcmc.py: sample", "stochopy/sample/hmc/_hmc.py: sample"]}
{"id": "C32", "title": "Argument validation", "statement": "minimize('de'|'cpso'|'pso'|'na') returns iff the call is valid: callable objective, n x 2 bounds, x0 of shape (popsize, n), popsize >= 2 (for 'de' at least the number of distinct individuals the strategy draws plus one, and n >= 1), parameters in their documented ranges, known strategy/constraints/updating, callable callback, mpi4py for backend 'mpi', and maxiter >= 2 and verbosity <= 1 when return_all is set. Otherwise it raises: TypeError for a non callable objective, KeyError for unknown strategy/constraints, ImportError without mpi4py, IndexError only for too few individuals or too short histories, ValueError in the other cases. Misuse that is documented is reported whatever the objective does.", "quantifier": "all argument combinations", "why_tests_cant": "Combinatorial space of arguments, precedence of checks.", "anchors": ["stochopy/optimize/de/_de.py: minimize", "stochopy/optimize/cpso/_cpso.py: minimize", "stochopy/optimize/na/_na.py: minimize", "stochopy/optimize/cmaes/_cmaes.py: minimize"]}
{"id": "C33", "title": "Method dispatch", "statement": "minimize(method=m)/sample(method=m) behaves as the optimizer/sampler registered last under m and raises KeyError for unregistered names; options=None and {} are the same; options cannot override fun, bounds, x0, args, callback.", "quantifier": "all registration histories and option dictionaries", "why_tests_cant": "Over all histories of register calls.", "anchors": ["stochopy/optimize/_helpers.py: register, minimize", "stochopy/sample/_helpers.py: register, sample"]}
{"id": "C34", "title": "Result objects: attribute access is item access", "statement": "On a result object, reading r.k equals r['k'] for every field name k that is not a dict method; setting one is visible through the other; missing attributes raise AttributeError; repr lists every key except xall/funall once, in sorted order, with the colons aligned.", "quantifier": "all key/value histories", "why_tests_cant": "Over all operation sequences.", "anchors": ["stochopy/_common.py: BaseResult"]}
{"id": "C35", "title": "CMA-ES strategy parameters are well-formed", "statement": "For every popsize, muperc with int(muperc*popsize) >= 1 and dimension >= 1: recombination weights are positive, decreasing and sum to 1; 1 <= mueff <= mu; 0 < cs,cc < 1... and 0 < c1, 0 <= cmu, c1 + cmu <= 1, damps > 1.", "quantifier": "all dimensions, population sizes, parent fractions", "why_tests_cant": "Inequalities over unbounded integers and logarithms.", "anchors": ["stochopy/optimize/cmaes/_cmaes.py: cmaes"]}
{"id": "C36", "title": "CMA-ES keeps a valid Gaussian", "statement": "At every iteration the covariance matrix is symmetric positive semidefinite (positive definite while c1+cmu < 1) and the step size sigma is positive.", "quantifier": "all runs, all objectives, all random draws", "why_tests_cant": "Matrix invariant over unbounded iterations.", "anchors": ["stochopy/optimize/cmaes/_cmaes.py: cmaes"]}
{"id": "C37", "title": "Penalize: feasible evaluations, sane penalties", "statement": "With constraints='Penalize' ('cmaes','vdcma'), every evaluated point, recorded point and result.x lie in the bounds; reported values are never below the objective at the reported point and equal it for candidates that were feasible; the history of fitness ranges stays non-empty, positive and bounded in length, so the penalty computation never raises.", "quantifier": "all runs", "why_tests_cant": "Invariant over history including data-dependent resets.", "anchors": ["stochopy/optimize/cmaes/_constraints.py: Penalize"]}
{"id": "C38", "title": "CMA-ES/VD-CMA return the best of the run", "statement": "result.fun of 'cmaes'/'vdcma' is the smallest value over all evaluated points.", "quantifier": "all runs", "why_tests_cant": "Requires comparing all generations.", "anchors": ["stochopy/optimize/cmaes/_cmaes.py: cmaes", "stochopy/optimize/vdcma/_vdcma.py: vdcma"]}
{"id": "C39", "title": "Every documented CMA-ES stopping criterion can fire", "statement": "EqualFunValues (-5) stops a run whose best values have been constant for ilim generations, TolFun (-7) a run whose values range below 1e-12; NoEffectAxis (-2) and ConditionCov (-4) apply to both cmaes and vdcma.", "quantifier": "all histories of fitness values, all tolerances", "why_tests_cant": "Unreachability of a status cannot be tested.", "anchors": ["stochopy/optimize/cmaes/_cmaes.py: converge", "stochopy/optimize/vdcma/_vdcma.py: vdcma"]}
{"id": "C40", "title": "CMA-ES/VD-CMA status is faithful", "statement": "success is True iff status in {0,1}; status 0/1 implies fun <= ftol; status -1 iff nit = maxiter; a run not stopped by budget reports -1 never; every status has a documented message.", "quantifier": "all runs", "why_tests_cant": "Chain of tests over run-dependent data.", "anchors": ["stochopy/optimize/cmaes/_cmaes.py: converge", "stochopy/optimize/_common.py: messages"]}
{"id": "C41", "title": "VD-CMA keeps a valid Gaussian", "statement": "At every iteration all dvec entries stay positive, change by at most 70 percent per iteration, and v stays non-zero with a relative change of at most 70 percent; the implied covariance D(I+vv^T)D is positive definite.", "quantifier": "all runs", "why_tests_cant": "Invariant through truncated natural gradient steps.", "anchors": ["stochopy/optimize/vdcma/_vdcma.py: vdcma, ngv_ngd"]}
{"id": "C42", "title": "VD-CMA adapts its covariance", "statement": "VD-CMA adapts dvec and v to the objective in every dimension.", "quantifier": "all dimensions, all runs", "why_tests_cant": "That adaptation is inert for small dimensions must be shown for all inputs.", "anchors": ["stochopy/optimize/vdcma/_vdcma.py: vdcma"]}
{"id": "C43", "title": "MCMC/HMC chains: values match samples", "statement": "funall[i] is the objective at xall[i] for every sample i, xall and funall have exactly maxiter entries, xall[0] is x0 when given.", "quantifier": "every chain length, objective, random sequence", "why_tests_cant": "Inductive over the chain.", "anchors": ["stochopy/sample/mcmc/_mcmc.py: sample", "stochopy/sample/hmc/_hmc.py: sample"]}
{"id": "C44", "title": "MCMC transition structure", "statement": "Each MCMC sample equals its predecessor or differs from it only inside the current block of ceil/perc-determined coordinates, where it is predecessor + stepsize*0.5*(upper-lower)*normal draw; blocks are visited cyclically and cover every coordinate.", "quantifier": "all chains", "why_tests_cant": "Over all iterations and block layouts.", "anchors": ["stochopy/sample/mcmc/_mcmc.py: sample"]}
{"id": "C45", "title": "Metropolis acceptance rule", "statement": "A proposal with f(new) <= f(old) is always accepted and in general the proposal is accepted for a set of uniform draws of measure min(1, exp(f(old)-f(new))); the resulting rule satisfies detailed balance with respect to exp(-f).", "quantifier": "all values f(old), f(new)", "why_tests_cant": "A probability over a continuum.", "anchors": ["stochopy/sample/mcmc/_mcmc.py: sample", "stochopy/sample/hmc/_hmc.py: sample"]}
{"id": "C46", "title": "NaN objective values are not accepted by the samplers", "statement": "A proposal with a NaN objective value is never accepted.", "quantifier": "all chains with partially undefined objectives", "why_tests_cant": "Needs NaN semantics of min and comparisons in every state.", "anchors": ["stochopy/sample/mcmc/_mcmc.py: sample"]}
{"id": "C47", "title": "constraints='Reject' rejects exactly the infeasible proposals", "statement": "With constraints='Reject' infeasible proposals are rejected and feasible proposals are accepted according to the Metropolis rule.", "quantifier": "all chains, both samplers", "why_tests_cant": "No test uses Reject; the claim is about every proposal.", "anchors": ["stochopy/sample/_common.py: in_search_space"]}
{"id": "C48", "title": "Samplers return the best sample", "statement": "result.fun is the smallest value in funall and equals the objective at result.x.", "quantifier": "all chains", "why_tests_cant": "Depends on where in the chain the best sample is, in particular the first one.", "anchors": ["stochopy/sample/mcmc/_mcmc.py: sample", "stochopy/sample/hmc/_hmc.py: sample"]}
{"id": "C49", "title": "MCMC accepts every perc in [0,1]", "statement": "mcmc runs to completion for every perc in [0,1] and every dimension.", "quantifier": "all dimensions and fractions", "why_tests_cant": "Depends on divisibility of the dimension by the block size.", "anchors": ["stochopy/sample/mcmc/_mcmc.py: sample"]}
{"id": "C50", "title": "HMC leap-frog is reversible and volume preserving", "statement": "Integrating, flipping the momentum and integrating again returns to the start with flipped momentum, for any gradient; the integrator preserves volume.", "quantifier": "every gradient function, step size vector, number of leap-frog steps, start", "why_tests_cant": "Identity over a continuum.", "anchors": ["stochopy/sample/hmc/_hmc.py: sample"]}
{"id": "C51", "title": "HMC uses the user's gradient", "statement": "When jac is callable it is called as jac(x,*args) to obtain the gradient.", "quantifier": "every jac", "why_tests_cant": "Tests never pass jac; claim is over all gradients.", "anchors": ["stochopy/sample/hmc/_hmc.py: sample"]}
{"id": "C52", "title": "HMC nfev is exact", "statement": "nfev is the number of objective calls and equals 1 + (maxiter-1)*(2*ndim*(nleap+2)+2) without constraints.", "quantifier": "all dimensions, chain lengths, leap-frog counts", "why_tests_cant": "Exact counting formula.", "anchors": ["stochopy/sample/hmc/_hmc.py: sample, count, numerical_gradient"]}
{"id": "C53", "title": "Finite differences", "statement": "numerical_gradient is the central difference in each coordinate: exact for every quadratic objective, and leaves the evaluation point unchanged.", "quantifier": "all quadratics, points, step sizes", "why_tests_cant": "Identity over a continuum.", "anchors": ["stochopy/sample/hmc/_hmc.py: numerical_gradient"]}
{"id": "C54", "title": "Sampler callbacks see the chain so far", "statement": "The callback is called maxiter times; call k has nit = k, first argument xall[k-1], and state.xall/state.funall holding the k samples so far.", "quantifier": "all chains", "why_tests_cant": "Off-by-one over every iteration.", "anchors": ["stochopy/sample/mcmc/_mcmc.py: sample", "stochopy/sample/hmc/_hmc.py: sample"]}
{"id": "C55", "title": "User data is not modified (stepsize)", "statement": "sample does not modify the array passed as stepsize, so calling it twice with the same arguments and seed gives the same chain.", "quantifier": "all step-size arrays", "why_tests_cant": "Aliasing.", "anchors": ["stochopy/sample/mcmc/_mcmc.py: sample", "stochopy/sample/hmc/_hmc.py: sample"]}
{"id": "C56", "title": "accept_ratio is exact", "statement": "accept_ratio is the number of accepted proposals divided by maxiter and lies in [0,1).", "quantifier": "all chains", "why_tests_cant": "Inductive counting.", "anchors": ["stochopy/sample/mcmc/_mcmc.py: sample", "stochopy/sample/hmc/_hmc.py: sample"]}
{"id": "C57", "title": "Benchmark functions: known global minimum", "statement": "sphere, quartic, rastrigin, rosenbrock, griewank and ackley are minimal exactly at their documented minimiser (0, or the all-ones vector for rosenbrock) with minimum 0 (ackley: 0 up to the literal used for e); styblinski_tang is non-negative.", "quantifier": "all vectors of all dimensions", "why_tests_cant": "Over all real vectors.", "anchors": ["stochopy/factory/benchmark.py"]}
{"id": "C58", "title": "Coordinate changes are inverse to each other", "statement": "NA's normalize/unnormalize and CMA-ES's standardize/unstandardize are mutually inverse on coordinates with lower < upper and map the bounds to the unit box ([0,1] resp. [-1,1]) and back.", "quantifier": "all points and bounds", "why_tests_cant": "Over all points.", "anchors": ["stochopy/optimize/na/_na.py: na", "stochopy/optimize/cmaes/_cmaes.py: cmaes", "stochopy/optimize/vdcma/_vdcma.py: vdcma"]}
{"id": "C59", "title": "Direct optimizer functions have working defaults", "statement": "Each optimizer (de, pso, cpso, na, cmaes, vdcma) called directly with only fun and bounds runs.", "quantifier": "all objectives and bounds", "why_tests_cant": "Default argument values interact with validation.", "anchors": ["stochopy/optimize/na/_na.py: minimize"]}
{"id": "C60", "title": "Upper and lower bounds are treated alike by the CMA-ES penalty", "statement": "The boundary weights adapt in the same way for a mean drifting below the lower bound as for a mean drifting above the upper bound.", "quantifier": "all states", "why_tests_cant": "Symmetry over all states.", "anchors": ["stochopy/optimize/cmaes/_constraints.py: Penalize"]}
{"id": "C61", "title": "PSO and CPSO runs follow the swarm update equation", "statement": "Every generation moves each particle by the velocity w*v + c1*r1*(pbest-x) + c2*r2*(gbest-x) with r1, r2 in [0,1), limited by the constraint handler, starting at rest; pbest is the particle's best past position (since its last restart) and gbest the best known point, with immediate updating including the particles already moved.", "quantifier": "all runs, all populations, generations and seeds", "why_tests_cant": "Relates consecutive generations of every possible run.", "anchors": ["stochopy/optimize/cpso/_cpso.py: mutation, pso_sync, pso_async", "stochopy/optimize/_common.py: selection_sync, selection_async"]}
{"id": "C62", "title": "Samplers return exactly on valid arguments", "statement": "mcmc and hmc return a result if and only if the arguments are valid: callable objective, (n,2) bounds, an x0 of length n, a float stepsize of the right length, perc in [0,1] / nleap >= 1, a callable callback, maxiter >= 1 (and, as found, equal block sizes for mcmc and no gradient function for hmc); otherwise they raise TypeError, ValueError or IndexError.", "quantifier": "all argument combinations", "why_tests_cant": "Both directions over the whole argument space.", "anchors": ["stochopy/sample/mcmc/_mcmc.py: sample", "stochopy/sample/hmc/_hmc.py: sample"]}
{"id": "C63", "title": "Integer step sizes are accepted", "statement": "stepsize may be any number or sequence of numbers, including Python integers.", "quantifier": "all step sizes", "why_tests_cant": "Type-dependent in-place arithmetic.", "anchors": ["stochopy/sample/mcmc/_mcmc.py: sample", "stochopy/sample/hmc/_hmc.py: sample"]}
{"id": "C64", "title": "HMC makes nleap leap-frog steps", "statement": "Every HMC proposal is the end point of nleap leap-frog steps (half momentum step, position step, half momentum step) from the current sample with a fresh normal momentum, accepted by the Metropolis rule on the change of the total energy.", "quantifier": "all objectives, chains, numbers of steps", "why_tests_cant": "Relates the whole trajectory to the textbook integrator.", "anchors": ["stochopy/sample/hmc/_hmc.py: sample"]}
{"id": "C65", "title": "CMA-ES and VD-CMA sample from the Gaussian they maintain", "statement": "Every generation of cmaes is drawn as xmean + sigma*A*z from standard normal z with A*A^T equal to the covariance matrix C as of the last decomposition, which is at most popsize/(c1+cmu)/ndim/10 evaluations old, and invsqrtC is its inverse square root; every generation of vdcma is drawn in the same way with A*A^T = D(I+vv^T)D, except for the injected pair, which lies symmetrically about the mean in the direction of its last move, at the Mahalanobis distance of a standard normal vector.", "quantifier": "all runs, dimensions, populations and seeds (real arithmetic)", "why_tests_cant": "Linear algebra over every reachable covariance matrix.", "anchors": ["stochopy/optimize/cmaes/_cmaes.py: cmaes", "stochopy/optimize/vdcma/_vdcma.py: vdcma"]}
{"id": "C66", "title": "Argument validation of cmaes and vdcma", "statement": "cmaes and vdcma return if and only if the arguments are valid (callable objective, (n,2) bounds, x0 of length n, sigma > 0, 0 < muperc <= 1, known constraints, callable callback, maxiter >= 1, available backend), and otherwise raise the exception the argument justifies; no internal computation fails.", "quantifier": "all argument combinations, objectives and seeds", "why_tests_cant": "Both directions over the whole argument space; needs positivity of every divisor and root in every reachable state.", "anchors": ["stochopy/optimize/cmaes/_cmaes.py: minimize, cmaes", "stochopy/optimize/vdcma/_vdcma.py: minimize, vdcma"]}
{"id": "C67", "title": "VD-CMA moves along the natural gradient", "statement": "In six dimensions or more (below that vdcma does not adapt, see C42), the increments of dvec and vvec computed by vdcma in each generation are a positive multiple of the natural gradient of the weighted log-likelihood of the selected steps with respect to the Gaussian with covariance D(I+vv^T)D (the product of the inverse Fisher matrix and the gradient), exactly so while no component of v dominates (v_j^2 <= |v|^2/4), and otherwise with the Fisher matrix damped by a factor alpha in (0,1].", "quantifier": "all dimensions, steps, v, d (real arithmetic)", "why_tests_cant": "An identity between a closed formula and an inverse Fisher matrix for every argument.", "anchors": ["stochopy/optimize/vdcma/_vdcma.py: ngv_ngd, pvec_and_qvec, vdcma"]}
{"id": "C68", "title": "CMA-ES and VD-CMA adapt without bias", "statement": "If the selected steps carry no information (mean zero, uncorrelated, with the covariance of the model), then cmaes keeps on average its mean and its covariance matrix, and keeps the covariance of its evolution paths (I for ps, C for pc); vdcma keeps the covariance of its path. cmaes increases its step size exactly when ps is longer than chind; vdcma exactly when on a moving average the point injected along the last move ranks better than its mirror image.", "quantifier": "all dimensions, population sizes, covariances, distributions (real arithmetic)", "why_tests_cant": "A statement about expectations over all distributions.", "anchors": ["stochopy/optimize/cmaes/_cmaes.py: cmaes", "stochopy/optimize/vdcma/_vdcma.py: vdcma"]}
{"id": "C69", "title": "CMA-ES and VD-CMA recombine the best points", "statement": "In each generation the new mean is the weighted average, with positive strictly decreasing weights summing to one, of the int(muperc*popsize) best points of the generation in the order of their values; no unselected point has a smaller value than a selected one.", "quantifier": "all runs and objectives, including NaN values", "why_tests_cant": "Over all populations and orderings.", "anchors": ["stochopy/optimize/cmaes/_cmaes.py: cmaes", "stochopy/optimize/vdcma/_vdcma.py: vdcma"]}
{"id": "C70", "title": "The first generation of CMA-ES and VD-CMA surrounds x0", "statement": "The first generation evaluates x0 + sigma*(upper-lower)/2*z with standard normal z (for vdcma with the initial covariance I+vv^T), or the same around a uniformly random point of the search space when x0 is not given.", "quantifier": "all x0, bounds, sigma, seeds, without constraints", "why_tests_cant": "Needs standardisation to be undone exactly for every input.", "anchors": ["stochopy/optimize/cmaes/_cmaes.py: cmaes", "stochopy/optimize/vdcma/_vdcma.py: vdcma"]}
{"id": "C71", "title": "Only the order of the objective values matters to de, pso, cpso and na", "statement": "Replacing the objective f by phi(f) and ftol by phi(ftol), with phi strictly increasing, changes nothing but the values: the same points are evaluated in the same order, the same random numbers are drawn, the run stops at the same iteration for the same reason (or raises the same exception) and returns the same point, and every reported, recorded and callback value is the old one mapped by phi.", "quantifier": "all objectives, all strictly increasing phi (also on infinities, NaN to NaN), all options, seeds, iteration counts; de, pso, cpso, na", "why_tests_cant": "Compares two runs of unbounded length for all pairs (f, phi); a test can only try a few changes of values.", "anchors": ["stochopy/optimize/de/_de.py: minimize", "stochopy/optimize/cpso/_cpso.py: minimize", "stochopy/optimize/pso/_pso.py: minimize", "stochopy/optimize/na/_na.py: minimize", "stochopy/optimize/_common.py: selection_sync"]}
{"id": "C72", "title": "The origin and the units of the coordinates do not matter", "statement": "Counting all coordinates in other units and from other origins (bounds, x0 and the objective converted, xtol too where it is a distance in user coordinates) gives the same run in the new coordinates: same random numbers, same values, same stopping iteration and reason (or same exception), and every evaluated, returned, recorded and callback point converted. For na, cmaes, vdcma and mcmc every coordinate may have its own units; for de, pso and cpso, whose xtol is a distance, and for hmc, whose finite_diff_step is one, all coordinates share one unit.", "quantifier": "all problems, options, seeds, iteration counts, all unit factors s > 0 and origins t; de, pso, cpso, na, cmaes, vdcma, mcmc, hmc", "why_tests_cant": "Compares two runs of unbounded length for all pairs (problem, change of coordinates).", "anchors": ["stochopy/optimize/de/_de.py: minimize", "stochopy/optimize/cpso/_cpso.py: restart", "stochopy/optimize/na/_na.py: na", "stochopy/optimize/cmaes/_cmaes.py: cmaes", "stochopy/optimize/vdcma/_vdcma.py: vdcma"]}
{"id": "C73", "title": "Stopping and reporting options do not influence the search", "statement": "Two calls that differ only in maxiter, xtol, ftol, return_all, verbosity and callback do the same until one of them stops: the points evaluated by the shorter run are the first ones evaluated by the longer, callbacks of the same iteration receive the same, the result of the shorter run is what the longer one has at that iteration, recorded histories are prefixes (for equal verbosity), and runs of equal length end in the same generator state. For cpso with restarts, whose schedule refers to maxiter, maxiter is kept.", "quantifier": "all problems, seeds, options and pairs of stopping/reporting options; de, pso, cpso, na, cmaes, vdcma", "why_tests_cant": "Relates two runs of unbounded length for every pair of option sets.", "anchors": ["stochopy/optimize/de/_de.py: minimize", "stochopy/optimize/cpso/_cpso.py: restart", "stochopy/optimize/na/_na.py: na", "stochopy/optimize/cmaes/_cmaes.py: cmaes", "stochopy/optimize/vdcma/_vdcma.py: vdcma"]}
{"id": "C74", "title": "The search of cmaes and vdcma depends only on how values compare", "statement": "Without constraints, replacing the objective f by phi(f) with phi strictly increasing does not change the points cmaes and vdcma evaluate, the iterates, the history or the random numbers drawn, except that the run may stop at another iteration (the stopping tests read the values); reported values are mapped by phi.", "quantifier": "all problems without constraints, seeds, iteration counts and strictly increasing phi", "why_tests_cant": "Relates two runs of unbounded length for every transformation of the objective.", "anchors": ["stochopy/optimize/cmaes/_cmaes.py: cmaes", "stochopy/optimize/vdcma/_vdcma.py: vdcma"]}
{"id": "C75", "title": "Complete description of penalised runs of cmaes and vdcma", "statement": "With Penalize, bounds and finite objective values a run of cmaes or vdcma consists of generations in which candidates are drawn from the Gaussian of the current mean, step size and covariance; the nearest points of the search space are evaluated, in order; the memory of fitness ranges and the weights of the coordinates change by a fixed rule (quartile distance in units of the squared step, median range, weights increased when the mean is far outside and moving away); the objective value of the nearest point plus the weighted squared distances is used for selection; the next mean is the weighted mean of the best; and the result is the best penalised candidate of the last generation.", "quantifier": "every objective with finite values, argument list, random stream, eigen decomposition and number of generations", "why_tests_cant": "Describes every generation of unbounded runs, including the history-dependent weights.", "anchors": ["stochopy/optimize/cmaes/_cmaes.py: cmaes", "stochopy/optimize/cmaes/_constraints.py: Penalize", "stochopy/optimize/vdcma/_vdcma.py: vdcma"]}
{"id": "C76", "title": "With MPI every rank returns the result of rank 0", "statement": "With backend=\"mpi\" every rank runs the optimizer and meets the others in the objective wrapper, which broadcasts the population of rank 0 and gives the values to every rank. All ranks end, and every rank returns the same result as rank 0, which is the result of the corresponding serial run, even if the generators of the ranks are in different states.", "quantifier": "every number of ranks, every optimizer, argument list and family of generator states", "why_tests_cant": "Needs several processes; the generators of all ranks are arbitrary, and the failing cases include runs that never end.", "anchors": ["stochopy/optimize/_common.py: optimizer", "stochopy/optimize/de/_de.py: de", "stochopy/optimize/cpso/_cpso.py: cpso", "stochopy/optimize/na/_na.py: na", "stochopy/optimize/cmaes/_cmaes.py: cmaes", "stochopy/optimize/vdcma/_vdcma.py: vdcma"]}
{"id": "C77", "title": "Runs of cmaes and vdcma are runs of the published algorithms", "statement": "A whole run of cmaes over the real numbers obeys the equations of the evolution strategy with covariance matrix adaptation: initial distribution, sampling along the principal axes of the last decomposed covariance matrix, ranking, mean, the two evolution paths, covariance matrix, step size, times of decomposition, and termination by the first of ten rules that holds, in order. A whole run of vdcma likewise obeys the equations of VD-CMA: covariance D(1+vv^T)D, symmetric square root, two mirrored points along the last step, step size from the median success, natural gradient of the log likelihood with the largest admissible alpha and the largest factor that keeps the parameters positive. Objective values enter through the ranking, the best value of each generation and the rules -5 and -7 only; without constraints they are the values of the objective at the evaluated points, with Penalize those of C75.", "quantifier": "every objective, bounds, argument list, random stream, sorting algorithm and eigen decomposition; every number of generations", "why_tests_cant": "Describes every generation of runs of any length by equations over the reals; a test can compare a few runs with another implementation that may share its mistakes.", "anchors": ["stochopy/optimize/cmaes/_cmaes.py: cmaes", "stochopy/optimize/cmaes/_cmaes.py: converge", "stochopy/optimize/vdcma/_vdcma.py: vdcma"]}
{"id": "C78", "title": "Runs of de are determined by the description of the algorithm", "statement": "A whole run of de obeys an explicit description: first population (given or Latin hypercube), for every generation and member the mutants of the chosen strategy from different other members, the crossover with one coordinate always taken from the mutant, redrawing of coordinates outside the box with constraints 'Random', one-to-one selection (all at once with deferred, one after the other with immediate updating), best point, termination by the first rule that holds, evaluated points, callbacks, recorded history, returned fields, the array passed as x0 and the state of the generator. At most one output meets the description, so it determines everything the caller can observe.", "quantifier": "every objective, bounds, argument list, random stream, number of generations", "why_tests_cant": "Fixes the whole behaviour of runs of any length from every random stream; tests compare selected fields of selected runs.", "anchors": ["stochopy/optimize/de/_de.py: minimize", "stochopy/optimize/de/_de.py: de", "stochopy/optimize/de/_de.py: de_sync", "stochopy/optimize/de/_de.py: de_async", "stochopy/optimize/de/_strategy.py: rand1bin", "stochopy/optimize/_common.py: selection_sync", "stochopy/optimize/_common.py: selection_async"]}
{"id": "C79", "title": "Runs of pso and cpso are determined by the description of the algorithm", "statement": "A whole run of cpso obeys an explicit description: first swarm with zero velocities, velocity from inertia, own best and leader with fresh random numbers per coordinate, shrinking of the velocity to the first point where it leaves the box, selection, restart of the particles with the worst personal bests when the swarm is small (number and threshold as functions of the iteration), termination, evaluated points, callbacks, history, returned fields, the array passed as x0 and the state of the generator. pso is the same without restarts. At most one output meets the description.", "quantifier": "every objective, bounds, argument list, random stream, sorting algorithm, number of generations", "why_tests_cant": "Fixes the whole behaviour of runs of any length from every random stream, including the rare restarts.", "anchors": ["stochopy/optimize/cpso/_cpso.py: minimize", "stochopy/optimize/cpso/_cpso.py: cpso", "stochopy/optimize/cpso/_cpso.py: pso_sync", "stochopy/optimize/cpso/_cpso.py: pso_async", "stochopy/optimize/cpso/_cpso.py: mutation", "stochopy/optimize/cpso/_cpso.py: restart", "stochopy/optimize/pso/_pso.py: minimize"]}
{"id": "C80", "title": "Runs of na are determined by the description of the algorithm", "statement": "If no variable is fixed and the first population is inside the box, a whole run of na obeys an explicit description in the coordinates of the unit cube: every walk starts at one of the nr best of all models, in turn, and moves along each coordinate to a uniform point between the nearest bisectors with other models (or faces of the cube) on both sides; then selection, termination, evaluated points, callbacks, history, returned fields and the state of the generator. At most one output meets the description. From the interior of a Voronoi cell the range of a move is exactly the part of the line inside the cell and the cube.", "quantifier": "every objective, bounds with lower < upper, argument list, random stream, sorting algorithm, number of generations", "why_tests_cant": "Fixes the whole behaviour of runs of any length from every random stream; the geometry is that of arbitrarily many cells in any dimension.", "anchors": ["stochopy/optimize/na/_na.py: minimize", "stochopy/optimize/na/_na.py: na", "stochopy/optimize/na/_na.py: mutation"]}
{"id": "C81", "title": "Runs of mcmc are determined by the description of the algorithm", "statement": "A completed call of sample(method='mcmc') obeys an explicit description: the first sample is the given one or uniform in the box; iteration k moves the coordinates of block k modulo the number of blocks by scaled normal draws, in order, and tests the proposal with the next uniform draw; samples, values, acceptance ratio, best accepted sample, callbacks, evaluated points and the state of the generator are as described. At most one output meets the description.", "quantifier": "every objective (values may be infinite or NaN), argument list, random stream and number of samples", "why_tests_cant": "Fixes the whole behaviour of chains of any length from every random stream.", "anchors": ["stochopy/sample/mcmc/_mcmc.py: sample", "stochopy/sample/_common.py: in_search_space"]}
{"id": "C82", "title": "Runs of hmc are determined by the description of the algorithm", "statement": "A completed call of sample(method='hmc') obeys an explicit description: normal momenta; half a momentum step with central differences, nleap + 1 position steps alternating with momentum steps, half a momentum step; the proposal is tested on the drop of the total energy with the next uniform draw; samples, values, acceptance ratio, best sample, callbacks, the evaluated points in order, their number and the state of the generator are as described. At most one output meets the description.", "quantifier": "every objective (values may be infinite or NaN), argument list, random stream, dimension, nleap and number of samples", "why_tests_cant": "Fixes the whole behaviour of chains of any length from every random stream, including every point at which the objective is evaluated.", "anchors": ["stochopy/sample/hmc/_hmc.py: sample", "stochopy/sample/hmc/_hmc.py: numerical_gradient", "stochopy/sample/_common.py: in_search_space"]}
{"id": "C83", "title": "Shrink keeps particles in the box in double precision", "statement": "In binary floating point arithmetic with rounding to nearest, with constraints='Shrink' and x0 inside the bounds, every point evaluated by pso or cpso satisfies the bounds.", "quantifier": "every objective, bounds, argument list and random stream, all doubles (without overflow)", "why_tests_cant": "The violations depend on the last bit of single operations; a test has to hit them, and the tolerance of a test hides them.", "anchors": ["stochopy/optimize/cpso/_constraints.py: shrink", "stochopy/optimize/cpso/_constraints.py: Shrink", "stochopy/optimize/cpso/_cpso.py: mutation"]}
{"id": "C84", "title": "The neighbourhood algorithm keeps the bounds and evaluates x0 in double precision", "statement": "In binary floating point arithmetic with rounding to nearest, with x0 inside the bounds, every point evaluated by na satisfies the bounds, and the first evaluated points are the rows of x0.", "quantifier": "every objective, bounds, argument list and random stream, all doubles (without overflow)", "why_tests_cant": "Depends on the last bit of the normalisation for particular bounds; the positive part is about runs of any length.", "anchors": ["stochopy/optimize/na/_na.py: na", "stochopy/optimize/na/_na.py: mutation"]}
{"id": "C85", "title": "The Latin hypercube sample is inside the bounds in double precision", "statement": "In binary floating point arithmetic with rounding to nearest, every point of the Latin hypercube sample used as the first population satisfies the bounds.", "quantifier": "every population size, dimension, bounds and random stream, all doubles (without overflow)", "why_tests_cant": "Needs a draw of zero for particular bounds: practically never seen in a test.", "anchors": ["stochopy/optimize/_common.py: lhs"]}
{"id": "C86", "title": "Random keeps de in the box in double precision", "statement": "In binary floating point arithmetic with rounding to nearest, with constraints='Random' and a first population inside the bounds, every point evaluated, returned, shown to the callback or recorded by de satisfies the bounds; without x0 every one is in the smallest box that contains the bounds and the rounded images of -1 and 1 under the map of the Latin hypercube.", "quantifier": "every objective, bounds, argument list, random stream and number of generations, all doubles (without overflow)", "why_tests_cant": "Rounding of lower + (upper - lower) * u for all doubles: the range of inputs cannot be sampled.", "anchors": ["stochopy/optimize/de/_constraints.py: Random", "stochopy/optimize/de/_de.py: de", "stochopy/optimize/_common.py: lhs"]}
{"id": "C87", "title": "hmc's numerical derivatives probe one coordinate at a time in double precision", "statement": "In binary floating point arithmetic with rounding to nearest, the derivative with respect to variable j is computed from two points that differ from the current position in coordinate j only; it is zero if the objective does not depend on variable j.", "quantifier": "every objective, position, step and dimension, all doubles (without overflow)", "why_tests_cant": "A step forth and back restores most numbers; the exceptions depend on the last bit, and the error is below usual tolerances unless the coordinate is small.", "anchors": ["stochopy/sample/hmc/_hmc.py: numerical_gradient"]}
{"id": "C88", "title": "A random first sample is inside the bounds in double precision", "statement": "Without x0, the first sample of mcmc and hmc, which is the first point evaluated and recorded, satisfies the bounds, also when operations are rounded to nearest.", "quantifier": "every objective, bounds, argument list and random stream, all doubles (without overflow)", "why_tests_cant": "Rounding of lower + (upper - lower) * u for all doubles: the range of inputs cannot be sampled.", "anchors": ["stochopy/sample/mcmc/_mcmc.py: sample", "stochopy/sample/hmc/_hmc.py: sample"]}
{"id": "C89", "title": "Penalize keeps cmaes and vdcma within the bounds in double precision", "statement": "With constraints=\"Penalize\", all points evaluated, shown to the callback, recorded or returned by cmaes and vdcma satisfy the bounds when operations are rounded to nearest, and a returned point strictly inside the bounds has the value of the objective there.", "quantifier": "every objective, ordered bounds, argument list and random stream, all doubles (without overflow)", "why_tests_cant": "Only particular bounds show the rounding of x * xstd + xm; a test with symmetric bounds never does.", "anchors": ["stochopy/optimize/cmaes/_constraints.py: Penalize", "stochopy/optimize/cmaes/_cmaes.py: cmaes (unstandardize)", "stochopy/optimize/vdcma/_vdcma.py: vdcma (unstandardize)"]}
{"id": "C90", "title": "The callback keeps the populations it is given", "statement": "The array that de, pso, cpso and na pass to the callback still holds, at the end of the run, the population that it held during the call: nothing is written into it after the callback has returned.", "quantifier": "every objective, x0, argument list, number of iterations and random stream", "why_tests_cant": "A test that looks at X inside the callback sees the right values; the arrays change only later, and only if an iteration improves something or restarts a particle.", "anchors": ["stochopy/optimize/de/_de.py: de (callback)", "stochopy/optimize/_common.py: selection_sync, selection_async", "stochopy/optimize/cpso/_cpso.py: cpso, pso_sync, pso_async, restart", "stochopy/optimize/cpso/_constraints.py", "stochopy/optimize/na/_na.py: na"]}
{"id": "C91", "title": "x0 may be any array-like", "statement": "A call of de, pso or cpso with x0 given as an integer array or as a nested list of numbers has the outcome of the call with the array of floats holding the same numbers; in particular the reported value belongs to the reported point and Shrink keeps the swarm in the box.", "quantifier": "every x0 with integer entries, objective, argument list, number of iterations and random stream", "why_tests_cant": "Tests that pass x0 pass an array of floats; with integers nothing fails visibly, only the numbers are wrong.", "anchors": ["stochopy/optimize/de/_de.py: minimize (x0), de", "stochopy/optimize/_common.py: selection_sync, selection_async", "stochopy/optimize/cpso/_cpso.py: minimize (x0), cpso, mutation, pso_sync, pso_async, restart", "stochopy/optimize/pso/_pso.py: minimize"]}
{"id": "C92", "title": "The objective may return integers", "statement": "A call of minimize with an objective that returns Python integers at some or all points has the outcome of the call with the objective that returns the same numbers as floats.", "quantifier": "every objective with finite values, set of points at which it returns integers, argument list, number of iterations and random stream", "why_tests_cant": "Test objectives return floats; an integer penalty on the whole initial population or a counting objective is needed, and nothing fails visibly except with Penalize.", "anchors": ["stochopy/optimize/_common.py: optimizer, selection_sync, selection_async", "stochopy/optimize/de/_de.py: de, de_async", "stochopy/optimize/cpso/_cpso.py: cpso, pso_async, restart", "stochopy/optimize/na/_na.py: na", "stochopy/optimize/cmaes/_constraints.py: Penalize"]}
{"id": "C93", "title": "Objectives with noise or state", "statement": "If the objective may answer the same point differently each time it is asked, a completed call still counts the requests exactly and reports a value that was the answer to a request for the reported point. For de, pso, cpso and na this value is the smallest answer of the run when no answer for the initial population is a NaN, and the values shown to the callback never increase; for cmaes and vdcma without constraints it is the smallest answer of the last generation. For cpso with restarts some initial answer must be below 1e30. An objective that always answers alike gives the run of the other properties.", "quantifier": "every sequence of answers, argument list, number of iterations and random stream; de, pso, cpso in both updating modes", "why_tests_cant": "Tests use deterministic functions; re-evaluating the best point or pairing a value with another request's point would go unnoticed.", "anchors": ["stochopy/optimize/_common.py: optimizer, selection_sync, selection_async", "stochopy/optimize/de/_de.py: de, de_sync, de_async", "stochopy/optimize/cpso/_cpso.py: cpso, pso_sync, pso_async, restart", "stochopy/optimize/pso/_pso.py: minimize", "stochopy/optimize/na/_na.py: na", "stochopy/optimize/cmaes/_cmaes.py: cmaes", "stochopy/optimize/vdcma/_vdcma.py: vdcma"]}
{"id": "C94", "title": "Variables with equal bounds stay fixed", "statement": "If the lower and the upper bound of a variable coincide (and x0, if given, respects them), then every point at which the objective is evaluated, the reported solution, every point shown to the callback and every recorded point have exactly this value in that variable, in exact and in floating point arithmetic. The same holds for every sample of mcmc and hmc.", "quantifier": "every number of variables and of fixed ones, all strategies, updating modes, constraints, numbers of iterations and random streams", "why_tests_cant": "Tests use boxes with non-empty interior; a fixed variable divides by a zero width in some of the maps to and from the unit cube.", "anchors": ["stochopy/optimize/_common.py: lhs", "stochopy/optimize/de/_de.py: de, mutation", "stochopy/optimize/de/_constraints.py: Random", "stochopy/optimize/cpso/_cpso.py: cpso, mutation, restart", "stochopy/optimize/na/_na.py: normalize, unnormalize", "stochopy/optimize/cmaes/_cmaes.py: standardize, unstandardize", "stochopy/optimize/vdcma/_vdcma.py: standardize, unstandardize", "stochopy/sample/mcmc/_mcmc.py: sample", "stochopy/sample/hmc/_hmc.py: sample, numerical_gradient"]}
{"id": "C95", "title": "Every region can be reached", "statement": "Started from any sample, a chain of mcmc or hmc visits every region of positive volume with positive probability after finitely many iterations; and every point drawn by cmaes and vdcma falls into every region of positive volume with positive probability.", "quantifier": "all objectives, dimensions, block sizes, step sizes and constraints, all samples and generations of a run", "why_tests_cant": "A statement about probabilities of events that a test run does not show; a chain that never leaves its starting region looks like a chain that has not left it yet.", "anchors": ["stochopy/sample/mcmc/_mcmc.py: sample", "stochopy/sample/hmc/_hmc.py: sample", "stochopy/optimize/cmaes/_cmaes.py: cmaes", "stochopy/optimize/vdcma/_vdcma.py: vdcma"]}
{"id": "C96", "title": "The samplers visit every region again and again", "statement": "With probability one, a sufficiently long chain of mcmc or hmc has as many samples as wanted in every region of positive volume, and the reported minimum falls below every value that the objective undercuts on a set of positive volume.", "quantifier": "all objectives, dimensions, block sizes, step sizes, starts, all numbers of iterations", "why_tests_cant": "A statement about the limit of arbitrarily long runs and about all but a null set of random outcomes; a test sees one finite run.", "anchors": ["stochopy/sample/mcmc/_mcmc.py: sample", "stochopy/sample/hmc/_hmc.py: sample, numerical_gradient", "stochopy/sample/_common.py: in_search_space"]}
{"id": "C97", "title": "A stagnating particle comes to rest", "statement": "When the best point of a particle of pso is the best point of the swarm and neither changes any more, the particle comes to rest there with probability one: its position converges to that point and its velocity to zero. More generally, a particle comes to rest when its best point and that of the swarm no longer change.", "quantifier": "all objectives, dimensions, swarms, all accepted inertia, cognitivity and sociability, all lengths of a run", "why_tests_cant": "A statement about the limit of arbitrarily long runs and all but a null set of random outcomes; on test functions the best points keep improving and the particles shrink together anyway.", "anchors": ["stochopy/optimize/cpso/_cpso.py: mutation, pso_sync, pso_async", "stochopy/optimize/pso/_pso.py: minimize"]}
{"id": "C98", "title": "No direction is preferred", "statement": "Reflecting the problem (bounds, x0 and objective mirrored in every coordinate) reflects the run: with suitably reflected random numbers, which have the same law, every evaluated, returned, recorded and callback point is the mirror image, with the same values, stopping iteration and reason (or the same exception). So the algorithm treats upper and lower bounds, and both directions along an axis, alike.", "quantifier": "all objectives, dimensions, centres of reflection, iteration counts and random streams; de, pso, cpso, na, cmaes, vdcma, mcmc, hmc", "why_tests_cant": "Compares the laws of two runs of unbounded length for all pairs (problem, reflection); test functions are symmetric, which hides a drift to one side.", "anchors": ["stochopy/optimize/_common.py: lhs", "stochopy/optimize/de/_de.py: mutation", "stochopy/optimize/cpso/_cpso.py: mutation", "stochopy/optimize/cpso/_constraints.py: Shrink", "stochopy/optimize/na/_na.py: mutation", "stochopy/optimize/cmaes/_cmaes.py: cmaes", "stochopy/optimize/cmaes/_constraints.py: Penalize", "stochopy/optimize/vdcma/_vdcma.py: vdcma", "stochopy/sample/mcmc/_mcmc.py: sample", "stochopy/sample/hmc/_hmc.py: sample, numerical_gradient"]}
{"id": "C99", "title": "cmaes does not depend on the coordinate system", "statement": "Without constraints, cmaes from a given x0 is invariant under rotations of the search space (in units of half the widths of the bounds): if the objective and x0 are turned by an orthogonal matrix Q, and the normal numbers of each generation by a rotation that depends only on the generations before, then every point of every generation is turned by Q and has the same value, until one of the runs ends. A run that ends by a rule that does not look at single coordinates (budget, xtol, ftol, condition number, equal values: -1, 0, 1, -4, -5, -7) is not shorter than the other. Turned normal numbers are as likely as the original ones.", "quantifier": "all objectives, rotations, starting points, dimensions, population sizes, iteration counts, random streams and eigendecompositions", "why_tests_cant": "Compares pairs of runs of unbounded length for a continuum of rotations; numerical runs of two problems diverge through rounding, so a test cannot compare them beyond a few generations. Coordinate-wise bugs (using C instead of B, transposed axes, wrong order of columns) keep the method working on separable test functions.", "anchors": ["stochopy/optimize/cmaes/_cmaes.py: cmaes, converge"]}
{"id": "C100", "title": "Moves that use all coordinates do not depend on the coordinate system", "statement": "With recombination=1, without constraints and from a given population, de is invariant under changes of linear coordinates: if the objective and the population are carried to new coordinates A x + t, every point of the run is, with the same random numbers, the same values, the same number of generations and the same status; for a rotation with any xtol, for any invertible A with xtol = 0. With perc=1, a common stepsize and no constraints, the chain of mcmc for a turned problem (turned in units of half the widths of the bounds) has the law of the turned chain, and the same holds for hmc on quadratic objectives.", "quantifier": "all objectives, coordinate systems, starting points, dimensions, population sizes, strategies, updating modes, chain lengths and (for de) random streams", "why_tests_cant": "Compares pairs of runs of unbounded length for all linear maps, and laws of whole chains; two floating-point runs of a method that takes decisions by comparing values drift apart, so a test cannot compare them, and a mixed-up index or a coordinate-wise factor keeps the methods working on separable test functions.", "anchors": ["stochopy/optimize/de/_de.py: de, de_sync, de_async", "stochopy/optimize/de/_strategy.py: rand1bin, best1bin", "stochopy/optimize/_common.py: selection_sync, selection_async", "stochopy/sample/mcmc/_mcmc.py: sample", "stochopy/sample/hmc/_hmc.py: sample, numerical_gradient"]}
{"id": "C101", "title": "Averages over the samples converge to means under exp(-f)", "statement": "With probability one, the average of a function over the samples of a sufficiently long call of mcmc or hmc is as close as wanted to its mean under the probability density proportional to exp(-f); in particular the share of the samples in a region tends to the probability of the region. This is what the samplers are for.", "quantifier": "all objectives with a finite integral of exp(-f), all functions integrable under that density, all dimensions, block sizes, step sizes, starts and numbers of iterations", "why_tests_cant": "A statement about the limit of arbitrarily long runs and about all but a null set of random outcomes; a finite test compares a noisy average with the mean up to a tolerance chosen so that it passes, and cannot tell a slow chain from a biased one.", "anchors": ["stochopy/sample/mcmc/_mcmc.py: sample", "stochopy/sample/hmc/_hmc.py: sample, numerical_gradient", "stochopy/sample/_common.py: in_search_space"]}
{"id": "C102", "title": "Late samples have almost the law exp(-f)", "statement": "The probability that sample number k of a call of mcmc or hmc falls into a region is as close as wanted to the probability of the region under the density proportional to exp(-f), once k is large enough; how large depends neither on the region nor on the number of iterations. So discarding the first samples removes the influence of the start.", "quantifier": "all objectives with a finite integral of exp(-f), all measurable regions at once, all dimensions, step sizes, starts, indices of samples and numbers of iterations", "why_tests_cant": "Convergence in total variation is a statement about all regions and about the law of a sample over all random outcomes; a test estimates a few probabilities from finitely many runs.", "anchors": ["stochopy/sample/mcmc/_mcmc.py: sample", "stochopy/sample/hmc/_hmc.py: sample, numerical_gradient", "stochopy/sample/_common.py: in_search_space"]}
{"id": "C103", "title": "An objective may write into the array it is called with", "statement": "What a call returns does not depend on whether the objective overwrites its argument (x -= shift, np.clip(x, lo, up, out=x), x.sort()): the same values are returned for the same points, so the reported and recorded points and values are those of the call with an objective that leaves its argument alone.", "quantifier": "all objectives, all ways of overwriting the argument, all options, dimensions, population sizes and numbers of iterations; every optimizer and sampler", "why_tests_cant": "Tests use pure objectives. Whether a write can be seen afterwards depends on which array the objective is handed (a temporary, a row of the population, of the candidates, of the history or of the caller's x0) in each place where a method calls it, and the effect may only show when the point becomes the best one.", "anchors": ["stochopy/optimize/_common.py: optimizer, selection_sync, selection_async", "stochopy/optimize/de/_de.py: de, de_sync, de_async", "stochopy/optimize/cpso/_cpso.py: cpso, pso_sync, pso_async", "stochopy/optimize/na/_na.py: na", "stochopy/sample/mcmc/_mcmc.py: sample", "stochopy/sample/hmc/_hmc.py: sample, numerical_gradient"]}
{"id": "C104", "title": "The order of the variables does not matter", "statement": "Two calls whose problems differ only by the order of the variables (bounds, x0, arrays of options and the arguments of the objective listed in another order) make the same search: if every variable gets the same random numbers in both, all evaluated, recorded and reported points are the same up to the order of the coordinates, and all values, counts, messages and exceptions are the same.", "quantifier": "all permutations of the variables, all objectives, all options and strategies, dimensions, population sizes, numbers of iterations and sequences of random numbers; every optimizer and sampler", "why_tests_cant": "A test would have to replace the random generator in order to give every variable the same numbers in both calls; and a dependence on the order (an index that is off by one, a loop that stops early, a variable that is treated first) may only change the choice among good points, so no final value looks wrong.", "anchors": ["stochopy/optimize/de/_de.py: de, de_sync, de_async", "stochopy/optimize/de/_strategy.py: rand1bin, best1bin", "stochopy/optimize/de/_constraints.py: Random", "stochopy/optimize/cpso/_cpso.py: cpso, pso_sync, pso_async, mutation", "stochopy/optimize/cpso/_constraints.py: Shrink", "stochopy/optimize/pso/_pso.py: minimize", "stochopy/optimize/vdcma/_vdcma.py: vdcma", "stochopy/optimize/cmaes/_constraints.py: Penalize", "stochopy/optimize/na/_na.py: na, mutation", "stochopy/sample/mcmc/_mcmc.py: sample", "stochopy/sample/hmc/_hmc.py: sample, numerical_gradient"]}
{"id": "C105", "title": "The objective is a black box", "statement": "A point at which the objective is evaluated depends only on the answers given before: two calls with the same arguments and the same state of the generator whose objectives answer the first N requests alike make the same first N + 1 requests. If two objectives answer all requests of one call alike, the other call returns the same: result, callback calls, requests, the caller's x0 and the state of the generator. So a run that was stopped by an exception in the objective had made the same requests as the run that was not, and values at points that were not asked for have no influence.", "quantifier": "all pairs of objectives, with or without noise or state, all N, all options, dimensions, population sizes, numbers of iterations and random streams; every optimizer and (for functions) sampler", "why_tests_cant": "Compares pairs of objectives that differ from an arbitrary request on; a test runs one objective. An evaluation that is not counted, or one made ahead of its turn, leaves every result plausible.", "anchors": ["stochopy/optimize/_common.py: optimizer, selection_sync, selection_async", "stochopy/optimize/de/_de.py: de, de_sync, de_async", "stochopy/optimize/cpso/_cpso.py: cpso, pso_sync, pso_async, restart", "stochopy/optimize/pso/_pso.py: minimize", "stochopy/optimize/na/_na.py: na, mutation", "stochopy/optimize/cmaes/_cmaes.py: cmaes", "stochopy/optimize/cmaes/_constraints.py: Penalize", "stochopy/optimize/vdcma/_vdcma.py: vdcma", "stochopy/sample/mcmc/_mcmc.py: sample", "stochopy/sample/hmc/_hmc.py: sample, numerical_gradient"]}
{"id": "C106", "title": "The step size of cmaes and vdcma may be an array", "statement": "sigma is documented as scalar or array_like. A list or array with a positive step size for each variable is accepted; an array with one entry gives the run that its entry gives, and the caller's array is left alone. (False: lists and longer arrays are rejected; a one-element array is overwritten by the run, and TolXUp and TolX compare the step size with its current instead of its initial value. True: up to these two tests the runs are the same.)", "quantifier": "all lists and arrays, objectives, constraints, dimensions, population sizes, eigen-decompositions and random streams", "why_tests_cant": "The test suite passes numbers only. With a one-element array the result is plausible: the difference is in a stopping test that fires rarely and in an object the caller may not look at again.", "anchors": ["stochopy/optimize/cmaes/_cmaes.py: minimize, cmaes, converge", "stochopy/optimize/vdcma/_vdcma.py: minimize, vdcma"]}
{"id": "C107", "title": "accept_ratio converges to the mean acceptance probability", "statement": "With probability one, accept_ratio of a sufficiently long call of mcmc or hmc is as close as wanted to the mean, under the probability density proportional to exp(-f), of the probability that the Metropolis rule min(1, exp(f(x) - f(y))) accepts a proposal y from x (averaged over the blocks when mcmc moves blocks of variables); this limit is positive. So accept_ratio estimates the quantity by which step sizes are tuned, and its dependence on the start and on the number of iterations fades.", "quantifier": "all objectives with a finite integral of exp(-f), all dimensions, block sizes, step sizes, starts and numbers of iterations", "why_tests_cant": "A statement about the limit of arbitrarily long runs and about all but a null set of random outcomes; a test sees one noisy ratio and has no exact value to compare it with.", "anchors": ["stochopy/sample/mcmc/_mcmc.py: sample", "stochopy/sample/hmc/_hmc.py: sample, numerical_gradient", "stochopy/sample/_common.py: in_search_space"]}
{"id": "C108", "title": "Samplers with noise or state in the objective", "statement": "When the objective may answer differently each time it is asked, every row of xall and funall still belongs together: the value is the answer the objective gave when that very sample was requested, also in the rows shown to the callback, and the reported x and fun are such a row (mcmc: unless no proposal with a value below infinity was accepted) with no better accepted one. The Metropolis test compares the recorded value of the current sample with the new answer for the proposal; mcmc makes exactly one request per proposal. For an objective that is a function of the point nothing changes.", "quantifier": "all answer sequences (arbitrary functions of the number of the request and the point, infinities and NaN included), dimensions, arguments, numbers of iterations and generator states", "why_tests_cant": "Tests use deterministic objectives, for which asking again or mixing up the answers of two requests for the same point cannot be seen.", "anchors": ["stochopy/sample/mcmc/_mcmc.py: sample", "stochopy/sample/hmc/_hmc.py: sample, numerical_gradient"]}
{"id": "C109", "title": "Independent noise in the objective and the limit of averages (mcmc)", "statement": "When every request for the objective is answered with fresh independent noise, the averages along the samples of mcmc tend to the mean under the density proportional to the expected value of exp(-objective). In particular noise added to a function changes nothing in the limit. The limit is the mean for the expected objective.", "quantifier": "all measurable noisy objectives with integrable expected weight, all noise laws, dimensions, step sizes, first samples and integrable functions; almost all number sequences", "why_tests_cant": "The claim is about limits of random runs with a random objective; a test sees one finite run, and the tests use no noise.", "anchors": ["stochopy/sample/mcmc/_mcmc.py: sample"]}
{"id": "C110", "title": "A callback may write into the array it is given", "statement": "If the callback overwrites elements of its first argument (X -= shift, np.clip(X, lo, up, out=X), X[:] = 0), the reported x was evaluated and fun is its value, fun is the least value returned in the call, the recorded best values never increase and the counts are right; recorded samples carry the values of the recorded points. If the callback writes only what was there before, nothing changes.", "quantifier": "all callbacks and all ways of overwriting the array, all objectives, options, dimensions, population sizes, numbers of iterations and random streams; every optimizer and sampler", "why_tests_cant": "Tests use callbacks that only read. Which array the callback is shown (the live population, a copy, a row of the history, a temporary) differs from method to method; a write can be seen only some iterations later and only if the overwritten row wins or survives.", "anchors": ["stochopy/optimize/_common.py: selection_sync, selection_async", "stochopy/optimize/de/_de.py: de, de_sync, de_async", "stochopy/optimize/cpso/_cpso.py: cpso, pso_sync, pso_async", "stochopy/optimize/pso/_pso.py: minimize", "stochopy/sample/mcmc/_mcmc.py: sample", "stochopy/sample/hmc/_hmc.py: sample"]}
{"id": "C111", "title": "A callback may write into the state it is given", "statement": "If the callback overwrites the array state.x (state.x *= 1000 in order to print millimetres), the reported x was evaluated and fun is its value; fun is the least value returned in the call, the recorded best values never increase and the counts are right. If the callback writes only what was there before, nothing changes.", "quantifier": "all callbacks and all ways of overwriting state.x and the population, all objectives, options, dimensions, population sizes, numbers of iterations and random streams; every optimizer", "why_tests_cant": "Tests use callbacks that only read. Whether state.x is a copy cannot be seen from its values, and with deferred updating every write but the last one disappears from the report although it has moved the swarm.", "anchors": ["stochopy/optimize/_common.py: selection_sync, selection_async", "stochopy/optimize/de/_de.py: de, de_sync, de_async", "stochopy/optimize/cpso/_cpso.py: cpso, pso_sync, pso_async, restart", "stochopy/optimize/pso/_pso.py: minimize"]}
{"id": "C112", "title": "A callback of a sampler may write into the history it is given", "statement": "If the callback of mcmc or hmc overwrites what it finds in its second argument (state.x *= 1000, state.xall -= origin, state.funall -= best in order to plot them), the chain goes on as if it had not: the objective is called on the same points, the callbacks are given the same samples and acceptance ratios, and the result differs only in the rows that were written; the reported x is what was left in the row of the best sample.", "quantifier": "all callbacks and all ways of overwriting rows of xall and funall at every call, all objectives, options, dimensions, block sizes, numbers of iterations and random streams; mcmc and hmc", "why_tests_cant": "Tests use callbacks that only read. state.x is a row of the live history, the current one only while the chain improves, so that a write moves the chain in some iterations of some runs; the changed chain looks like any other.", "anchors": ["stochopy/sample/mcmc/_mcmc.py: sample", "stochopy/sample/hmc/_hmc.py: sample"]}
{"id": "C113", "title": "A callback that raises ends the call there", "statement": "An exception raised by the callback comes out of minimize or sample unchanged, at the first call of the callback that raises: the calls made until then are those of the same run with a callback that does not raise, and the requests made until then are the first ones of that run, popsize per call for the optimizers, one for the first sample and a fixed number for every other one for the samplers. A callback that never raises, or no callback, leaves the outcome as it is. Exceptions of the library itself come out unless the callback raised before.", "quantifier": "for all arguments, all backends, all states of the generator, every callback (which exception is raised may depend on the number of the call and on everything that is shown) and every iteration", "why_tests_cant": "Raising from the callback is the only way to stop a run early; a handler added somewhere (for a failing worker, for a converging run) that swallows it, or a callback called once more or one generation late, shows only for callbacks that raise at a certain iteration.", "anchors": ["stochopy/optimize/de/_de.py: de", "stochopy/optimize/cpso/_cpso.py: cpso", "stochopy/optimize/na/_na.py: na", "stochopy/optimize/cmaes/_cmaes.py: cmaes", "stochopy/optimize/vdcma/_vdcma.py: vdcma", "stochopy/sample/mcmc/_mcmc.py: sample", "stochopy/sample/hmc/_hmc.py: sample"]}
{"id": "C114", "title": "A callback of an optimizer may write into the history it is given", "statement": "Whatever the callback writes into state.xall and state.funall (views of the arrays that minimize returns), the search does not change: the same points are requested, and the reported solution, value, counters and status, the population and the other entries of every state, the caller's x0 and the generator are those of the run whose callback writes nothing. Later rows are recorded as in that run, every call is shown what the calls before left in the earlier rows, and the returned history holds what all the calls left; rows into which no call writes are returned as recorded.", "quantifier": "for all arguments with a callback, all backends, all states of the generator, everything the callback may write (depending on the number of the call, the position and the history shown) and every iteration", "why_tests_cant": "Using the recorded history instead of the working arrays anywhere in the loop (for the best solution, or the set of all models of na) gives the same results in every test whose callback only reads; here nothing in the search may depend on it.", "anchors": ["stochopy/optimize/de/_de.py: de", "stochopy/optimize/cpso/_cpso.py: cpso", "stochopy/optimize/na/_na.py: na", "stochopy/optimize/cmaes/_cmaes.py: cmaes", "stochopy/optimize/vdcma/_vdcma.py: vdcma"]}
