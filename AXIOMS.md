# Axioms of every theorem in MANIFEST.json

Generated by `tools/gen_axioms.py` from `#print axioms`.

| theorem | axioms |
|---|---|
| `Stochopy.Props.C01_cmaes` | propext, Classical.choice, Quot.sound |
| `Stochopy.Props.C01_vdcma` | propext, Classical.choice, Quot.sound |
| `Stochopy.C01_de` | propext, Classical.choice, Quot.sound |
| `Stochopy.C01_cpso` | propext, Classical.choice, Quot.sound |
| `Stochopy.C01_pso` | propext, Classical.choice, Quot.sound |
| `Stochopy.C01_na` | propext, Classical.choice, Quot.sound |
| `Stochopy.C02_de` | propext, Classical.choice, Quot.sound |
| `Stochopy.C02_cpso` | propext, Classical.choice, Quot.sound |
| `Stochopy.C02_pso` | propext, Classical.choice, Quot.sound |
| `Stochopy.C02_na` | propext, Classical.choice, Quot.sound |
| `Stochopy.C03_de` | propext, Classical.choice, Quot.sound |
| `Stochopy.C03_cpso` | propext, Classical.choice, Quot.sound |
| `Stochopy.C03_pso` | propext, Classical.choice, Quot.sound |
| `Stochopy.C03_na` | propext, Classical.choice, Quot.sound |
| `Stochopy.Props.C04_cmaes` | propext, Classical.choice, Quot.sound |
| `Stochopy.Props.C04_vdcma` | propext, Classical.choice, Quot.sound |
| `Stochopy.C04_de` | propext, Classical.choice, Quot.sound |
| `Stochopy.C04_cpso` | propext, Classical.choice, Quot.sound |
| `Stochopy.C04_pso` | propext, Classical.choice, Quot.sound |
| `Stochopy.C04_na` | propext, Classical.choice, Quot.sound |
| `Stochopy.Props.C05_cmaes` | propext, Classical.choice, Quot.sound |
| `Stochopy.Props.C05_vdcma` | propext, Classical.choice, Quot.sound |
| `Stochopy.Props.C05_cmaes_terminates` | propext, Classical.choice, Quot.sound |
| `Stochopy.Props.C05_vdcma_terminates` | propext, Classical.choice, Quot.sound |
| `Stochopy.C05_de_terminates` | propext, Classical.choice, Quot.sound |
| `Stochopy.C05_cpso_terminates` | propext, Classical.choice, Quot.sound |
| `Stochopy.C05_pso_terminates` | propext, Classical.choice, Quot.sound |
| `Stochopy.C05_na_terminates` | propext, Classical.choice, Quot.sound |
| `Stochopy.C05_de` | propext, Classical.choice, Quot.sound |
| `Stochopy.C05_cpso` | propext, Classical.choice, Quot.sound |
| `Stochopy.C05_pso` | propext, Classical.choice, Quot.sound |
| `Stochopy.C05_na` | propext, Classical.choice, Quot.sound |
| `Stochopy.C06_de` | propext, Classical.choice, Quot.sound |
| `Stochopy.C06_cpso` | propext, Classical.choice, Quot.sound |
| `Stochopy.C06_pso` | propext, Classical.choice, Quot.sound |
| `Stochopy.C06_na` | propext, Classical.choice, Quot.sound |
| `Stochopy.C07_de_partial` | propext, Classical.choice, Quot.sound |
| `Stochopy.C07_cpso_partial` | propext, Classical.choice, Quot.sound |
| `Stochopy.C07_pso_partial` | propext, Classical.choice, Quot.sound |
| `Stochopy.C07_de_violated` | propext, Classical.choice, Quot.sound |
| `Stochopy.C07_cpso_violated` | propext, Classical.choice, Quot.sound |
| `Stochopy.Props.C08_cmaes` | propext, Classical.choice, Quot.sound |
| `Stochopy.Props.C08_vdcma` | propext, Classical.choice, Quot.sound |
| `Stochopy.C08_de` | propext, Classical.choice, Quot.sound |
| `Stochopy.C08_cpso` | propext, Classical.choice, Quot.sound |
| `Stochopy.C08_pso` | propext, Classical.choice, Quot.sound |
| `Stochopy.C08_na` | propext, Classical.choice, Quot.sound |
| `Stochopy.Props.C09_cmaes` | propext, Classical.choice, Quot.sound |
| `Stochopy.Props.C09_vdcma` | propext, Classical.choice, Quot.sound |
| `Stochopy.C09_de` | propext, Classical.choice, Quot.sound |
| `Stochopy.C09_cpso` | propext, Classical.choice, Quot.sound |
| `Stochopy.C09_pso` | propext, Classical.choice, Quot.sound |
| `Stochopy.C09_na` | propext, Classical.choice, Quot.sound |
| `Stochopy.Props.C10_cmaes` | propext, Classical.choice, Quot.sound |
| `Stochopy.Props.C10_vdcma` | propext, Classical.choice, Quot.sound |
| `Stochopy.C10_de` | propext, Classical.choice, Quot.sound |
| `Stochopy.C10_cpso` | propext, Classical.choice, Quot.sound |
| `Stochopy.C10_pso` | propext, Classical.choice, Quot.sound |
| `Stochopy.C10_na` | propext, Classical.choice, Quot.sound |
| `Stochopy.C10_de_verbosity` | propext, Classical.choice, Quot.sound |
| `Stochopy.C10_na_verbosity` | propext, Classical.choice, Quot.sound |
| `Stochopy.C10_cpso_verbosity` | propext, Classical.choice, Quot.sound |
| `Stochopy.C10_pso_verbosity` | propext, Classical.choice, Quot.sound |
| `Stochopy.Props.C11_cmaes` | propext, Classical.choice, Quot.sound |
| `Stochopy.Props.C11_vdcma` | propext, Classical.choice, Quot.sound |
| `Stochopy.C11_cpso` | propext, Classical.choice, Quot.sound |
| `Stochopy.C11_pso` | propext, Classical.choice, Quot.sound |
| `Stochopy.C12_de_violated` | propext, Classical.choice, Quot.sound |
| `Stochopy.C12_de_partial` | propext, Classical.choice, Quot.sound |
| `Stochopy.C13_na_violated` | propext, Classical.choice, Quot.sound |
| `Stochopy.C13_na_partial` | propext, Classical.choice, Quot.sound |
| `Stochopy.Props.C14_cmaes` | propext, Classical.choice, Quot.sound |
| `Stochopy.Props.C14_vdcma` | propext, Classical.choice, Quot.sound |
| `Stochopy.C14_de_violated` | propext, Classical.choice, Quot.sound |
| `Stochopy.C14_cpso_violated` | propext, Classical.choice, Quot.sound |
| `Stochopy.C14_pso_violated` | propext, Classical.choice, Quot.sound |
| `Stochopy.C14_na_violated` | propext, Classical.choice, Quot.sound |
| `Stochopy.C15_de` | propext, Classical.choice, Quot.sound |
| `Stochopy.C16_cpso` | propext, Classical.choice, Quot.sound |
| `Stochopy.C16_pso` | propext, Classical.choice, Quot.sound |
| `Stochopy.C17_shrink` | propext, Classical.choice, Quot.sound |
| `Stochopy.C17_none` | propext, Quot.sound |
| `Stochopy.C18_de` | propext, Classical.choice, Quot.sound |
| `Stochopy.C18_cpso` | propext, Classical.choice, Quot.sound |
| `Stochopy.C18_pso` | propext, Classical.choice, Quot.sound |
| `Stochopy.C18_na` | propext, Classical.choice, Quot.sound |
| `Stochopy.C19_violated` | propext, Classical.choice, Quot.sound |
| `Stochopy.C19_de_violated` | propext, Classical.choice, Quot.sound |
| `Stochopy.C19_partial` | propext, Classical.choice, Quot.sound |
| `Stochopy.C20_de` | propext, Classical.choice, Quot.sound |
| `Stochopy.C20_de_size` | propext, Classical.choice, Quot.sound |
| `Stochopy.C21_de` | propext, Classical.choice, Quot.sound |
| `Stochopy.C22_de` | propext, Classical.choice, Quot.sound |
| `Stochopy.C22_pso` | propext, Classical.choice, Quot.sound |
| `Stochopy.Props.C23_cmaes` | propext, Classical.choice, Quot.sound |
| `Stochopy.Props.C23_vdcma` | propext, Classical.choice, Quot.sound |
| `Stochopy.C23_de` | propext, Classical.choice, Quot.sound |
| `Stochopy.C23_na` | propext, Classical.choice, Quot.sound |
| `Stochopy.C23_cpso` | propext, Classical.choice, Quot.sound |
| `Stochopy.C23_pso` | propext, Classical.choice, Quot.sound |
| `Stochopy.C24_mpi` | propext, Classical.choice, Quot.sound |
| `Stochopy.C24_total` | propext, Classical.choice, Quot.sound |
| `Stochopy.C25_de_violated` | propext, Classical.choice, Quot.sound |
| `Stochopy.C25_na_violated` | propext, Classical.choice, Quot.sound |
| `Stochopy.C25_cpso_violated` | propext, Classical.choice, Quot.sound |
| `Stochopy.C25_violated` | propext, Classical.choice, Quot.sound |
| `Stochopy.C26_cpso` | propext, Classical.choice, Quot.sound |
| `Stochopy.C27_pso` | propext, Quot.sound |
| `Stochopy.C27_zero` | propext, Classical.choice, Quot.sound |
| `Stochopy.C28_na` | propext, Classical.choice, Quot.sound |
| `Stochopy.C28_na_fixed` | propext, Classical.choice, Quot.sound |
| `Stochopy.C29_na_partial` | propext, Classical.choice, Quot.sound |
| `Stochopy.C29_na_violated` | propext, Classical.choice, Quot.sound |
| `Stochopy.C30_cpso_partial` | propext, Classical.choice, Quot.sound |
| `Stochopy.C30_pso_partial` | propext, Classical.choice, Quot.sound |
| `Stochopy.C30_na` | propext, Classical.choice, Quot.sound |
| `Stochopy.C30_de_partial` | propext, Classical.choice, Quot.sound |
| `Stochopy.C30_violated` | propext, Classical.choice, Quot.sound |
| `Stochopy.C31_mcmc` | propext, Quot.sound |
| `Stochopy.C31_hmc` | propext, Quot.sound |
| `Stochopy.Props.C31_cmaes` | propext, Quot.sound |
| `Stochopy.Props.C31_vdcma` | propext, Quot.sound |
| `Stochopy.C31_de` | propext, Quot.sound |
| `Stochopy.C31_na` | propext, Quot.sound |
| `Stochopy.C31_cpso` | propext, Quot.sound |
| `Stochopy.C31_pso` | propext, Quot.sound |
| `Stochopy.Props.C31_cmaes_memory_partial` | propext, Classical.choice, Quot.sound |
| `Stochopy.Props.C31_vdcma_memory_partial` | propext, Classical.choice, Quot.sound |
| `Stochopy.Props.C31_violated` | propext, Classical.choice, Quot.sound |
| `Stochopy.C32_de` | propext, Classical.choice, Quot.sound |
| `Stochopy.C32_de_error` | propext, Classical.choice, Quot.sound |
| `Stochopy.C32_de_callable` | propext, Classical.choice, Quot.sound |
| `Stochopy.C32_de_first` | propext, Classical.choice, Quot.sound |
| `Stochopy.C32_na` | propext, Classical.choice, Quot.sound |
| `Stochopy.C32_na_error` | propext, Classical.choice, Quot.sound |
| `Stochopy.C32_na_callable` | propext, Classical.choice, Quot.sound |
| `Stochopy.C32_na_first` | propext, Classical.choice, Quot.sound |
| `Stochopy.C32_cpso` | propext, Classical.choice, Quot.sound |
| `Stochopy.C32_cpso_error` | propext, Classical.choice, Quot.sound |
| `Stochopy.C32_cpso_callable` | propext, Classical.choice, Quot.sound |
| `Stochopy.C32_cpso_first` | propext, Classical.choice, Quot.sound |
| `Stochopy.C32_pso` | propext, Classical.choice, Quot.sound |
| `Stochopy.C32_pso_error` | propext, Classical.choice, Quot.sound |
| `Stochopy.C32_pso_callable` | propext, Classical.choice, Quot.sound |
| `Stochopy.C32_pso_first` | propext, Classical.choice, Quot.sound |
| `Stochopy.Props.C33_unregistered` | propext, Quot.sound |
| `Stochopy.Props.C33_forwards` | propext, Classical.choice, Quot.sound |
| `Stochopy.Props.C33_reserved` | propext, Quot.sound |
| `Stochopy.Props.C33_no_options` | none |
| `Stochopy.Props.C33_unknown` | propext, Quot.sound |
| `Stochopy.Props.C33_minimize` | propext, Classical.choice, Quot.sound |
| `Stochopy.Props.C33_sample` | propext, Classical.choice, Quot.sound |
| `Stochopy.Props.C34_access` | propext, Quot.sound |
| `Stochopy.Props.C34_delete` | propext, Quot.sound |
| `Stochopy.Props.C34_dir` | propext, Classical.choice, Quot.sound |
| `Stochopy.Props.C34_repr` | propext, Classical.choice, Quot.sound |
| `Stochopy.Props.C35_weights` | propext, Classical.choice, Quot.sound |
| `Stochopy.Props.C35_rates` | propext, Classical.choice, Quot.sound |
| `Stochopy.Props.C36_loop` | propext, Classical.choice, Quot.sound |
| `Stochopy.Props.C36_cmaes` | propext, Classical.choice, Quot.sound |
| `Stochopy.Props.C37_cmaes_box` | propext, Classical.choice, Quot.sound |
| `Stochopy.Props.C37_cmaes_value` | propext, Classical.choice, Quot.sound |
| `Stochopy.Props.C37_cmaes_inside_partial` | propext, Classical.choice, Quot.sound |
| `Stochopy.Props.C37_vdcma_box` | propext, Classical.choice, Quot.sound |
| `Stochopy.Props.C37_vdcma_value` | propext, Classical.choice, Quot.sound |
| `Stochopy.Props.C37_vdcma_inside_partial` | propext, Classical.choice, Quot.sound |
| `Stochopy.Props.C37_feasible_partial` | propext, Classical.choice, Quot.sound |
| `Stochopy.Props.C37_history` | propext, Classical.choice, Quot.sound |
| `Stochopy.Props.C37_finite_partial` | propext, Classical.choice, Quot.sound |
| `Stochopy.Props.C37_violated` | propext, Classical.choice, Quot.sound |
| `Stochopy.Props.C38_cmaes_partial` | propext, Classical.choice, Quot.sound |
| `Stochopy.Props.C38_vdcma_partial` | propext, Classical.choice, Quot.sound |
| `Stochopy.Props.C38_violated` | propext, Classical.choice, Quot.sound |
| `Stochopy.Props.C39_cmaes_partial` | propext, Classical.choice, Quot.sound |
| `Stochopy.Props.C39_vdcma_partial` | propext, Classical.choice, Quot.sound |
| `Stochopy.Props.C39_cmaes_violated` | propext, Classical.choice, Quot.sound |
| `Stochopy.Props.C39_vdcma_violated` | propext, Classical.choice, Quot.sound |
| `Stochopy.Props.C39_vdcma_axes_violated` | propext, Classical.choice, Quot.sound |
| `Stochopy.Props.C40_cmaes` | propext, Classical.choice, Quot.sound |
| `Stochopy.Props.C40_vdcma` | propext, Classical.choice, Quot.sound |
| `Stochopy.Props.C41_loop` | propext, Classical.choice, Quot.sound |
| `Stochopy.Props.C41_vdcma` | propext, Classical.choice, Quot.sound |
| `Stochopy.Props.C42_violated` | propext, Classical.choice, Quot.sound |
| `Stochopy.Props.C42_rates_partial` | propext, Classical.choice, Quot.sound |
| `Stochopy.Props.C42_adapts_partial` | propext, Classical.choice, Quot.sound |
| `Stochopy.C43_mcmc` | propext, Classical.choice, Quot.sound |
| `Stochopy.C43_hmc` | propext, Classical.choice, Quot.sound |
| `Stochopy.C44_mcmc` | propext, Classical.choice, Quot.sound |
| `Stochopy.C44_cover` | propext, Quot.sound |
| `Stochopy.C45_test` | propext, Classical.choice, Quot.sound |
| `Stochopy.C45_downhill` | propext, Classical.choice, Quot.sound |
| `Stochopy.C45_probability` | propext, Classical.choice, Quot.sound |
| `Stochopy.C45_mcmc` | propext, Classical.choice, Quot.sound |
| `Stochopy.C45_mcmc_balance` | propext, Classical.choice, Quot.sound |
| `Stochopy.C45_hmc` | propext, Classical.choice, Quot.sound |
| `Stochopy.C45_hmc_balance` | propext, Classical.choice, Quot.sound |
| `Stochopy.C45_hmc_gradient` | propext, Classical.choice, Quot.sound |
| `Stochopy.C45_stationary` | propext, Classical.choice, Quot.sound |
| `Stochopy.C46_mcmc_violated` | propext, Classical.choice, Quot.sound |
| `Stochopy.C46_violated` | propext, Classical.choice, Quot.sound |
| `Stochopy.C46_mcmc_partial` | propext, Classical.choice, Quot.sound |
| `Stochopy.C47_mcmc_violated` | propext, Classical.choice, Quot.sound |
| `Stochopy.C47_hmc_violated` | propext, Classical.choice, Quot.sound |
| `Stochopy.C47_violated` | propext, Classical.choice, Quot.sound |
| `Stochopy.C47_mcmc_partial` | propext, Classical.choice, Quot.sound |
| `Stochopy.C47_hmc_partial` | propext, Classical.choice, Quot.sound |
| `Stochopy.C48_hmc` | propext, Classical.choice, Quot.sound |
| `Stochopy.C48_mcmc_violated` | propext, Classical.choice, Quot.sound |
| `Stochopy.C48_mcmc_violated_none` | propext, Classical.choice, Quot.sound |
| `Stochopy.C48_mcmc_partial` | propext, Classical.choice, Quot.sound |
| `Stochopy.C49_mcmc_partial` | propext, Classical.choice, Quot.sound |
| `Stochopy.C49_violated` | propext, Classical.choice, Quot.sound |
| `Stochopy.C49_violated_empty` | propext, Classical.choice, Quot.sound |
| `Stochopy.C50_hmc` | propext, Quot.sound |
| `Stochopy.C50_hmc_volume` | propext, Classical.choice, Quot.sound |
| `Stochopy.C50_numerical` | propext, Classical.choice, Quot.sound |
| `Stochopy.C51_violated` | propext, Classical.choice, Quot.sound |
| `Stochopy.C52_hmc` | propext, Classical.choice, Quot.sound |
| `Stochopy.C53_hmc` | propext, Classical.choice, Quot.sound |
| `Stochopy.C53_hmc_quadratic` | propext, Classical.choice, Quot.sound |
| `Stochopy.C54_mcmc_partial` | propext, Classical.choice, Quot.sound |
| `Stochopy.C54_hmc_partial` | propext, Classical.choice, Quot.sound |
| `Stochopy.C54_mcmc_violated` | propext, Classical.choice, Quot.sound |
| `Stochopy.C54_hmc_violated` | propext, Classical.choice, Quot.sound |
| `Stochopy.C55_mcmc_violated` | propext, Classical.choice, Quot.sound |
| `Stochopy.C55_hmc_violated` | propext, Classical.choice, Quot.sound |
| `Stochopy.C55_violated` | propext, Classical.choice, Quot.sound |
| `Stochopy.C55_mcmc_partial` | propext, Quot.sound |
| `Stochopy.C55_hmc_partial` | propext, Quot.sound |
| `Stochopy.C56_mcmc` | propext, Classical.choice, Quot.sound |
| `Stochopy.C56_hmc` | propext, Classical.choice, Quot.sound |
| `Stochopy.Props.C57_sphere` | propext, Classical.choice, Quot.sound |
| `Stochopy.Props.C57_quartic` | propext, Classical.choice, Quot.sound |
| `Stochopy.Props.C57_rosenbrock_partial` | propext, Classical.choice, Quot.sound |
| `Stochopy.Props.C57_rosenbrock_violated` | propext, Classical.choice, Quot.sound |
| `Stochopy.Props.C57_rosenbrock_nonneg_partial` | propext, Classical.choice, Quot.sound |
| `Stochopy.Props.C57_styblinski_violated` | propext, Classical.choice, Quot.sound |
| `Stochopy.Props.C57_styblinski_partial` | propext, Classical.choice, Quot.sound |
| `Stochopy.Props.C57_ones` | propext, Classical.choice, Quot.sound |
| `Stochopy.Props.C57_rastrigin` | propext, Classical.choice, Quot.sound |
| `Stochopy.Props.C57_griewank` | propext, Classical.choice, Quot.sound |
| `Stochopy.Props.C57_ackley_partial` | propext, Classical.choice, Quot.sound |
| `Stochopy.Props.C57_ackley_violated` | propext, Classical.choice, Quot.sound |
| `Stochopy.Props.C57_styblinski_min_partial` | propext, Classical.choice, Quot.sound |
| `Stochopy.Props.C57_ones_real` | propext, Classical.choice, Quot.sound |
| `Stochopy.C58_na` | propext, Classical.choice, Quot.sound |
| `Stochopy.C58_na_degenerate` | propext, Classical.choice, Quot.sound |
| `Stochopy.Props.C58_cmaes` | propext, Classical.choice, Quot.sound |
| `Stochopy.Props.C59_de` | propext, Classical.choice, Quot.sound |
| `Stochopy.Props.C59_cpso` | propext, Classical.choice, Quot.sound |
| `Stochopy.Props.C59_pso` | propext, Classical.choice, Quot.sound |
| `Stochopy.Props.C59_na_partial` | propext, Classical.choice, Quot.sound |
| `Stochopy.Props.C59_na_violated` | propext, Classical.choice, Quot.sound |
| `Stochopy.Props.C59_cmaes` | propext, Classical.choice, Quot.sound |
| `Stochopy.Props.C59_vdcma` | propext, Classical.choice, Quot.sound |
| `Stochopy.Props.C60_lower_violated` | propext, Classical.choice, Quot.sound |
| `Stochopy.Props.C60_upper_partial` | propext, Classical.choice, Quot.sound |
| `Stochopy.Props.C60_initial_partial` | propext, Classical.choice, Quot.sound |
| `Stochopy.Props.C60_violated` | propext, Classical.choice, Quot.sound |
| `Stochopy.C61_cpso` | propext, Classical.choice, Quot.sound |
| `Stochopy.C61_pso` | propext, Classical.choice, Quot.sound |
| `Stochopy.C62_mcmc` | propext, Classical.choice, Quot.sound |
| `Stochopy.C62_hmc` | propext, Classical.choice, Quot.sound |
| `Stochopy.C63_mcmc_violated` | propext, Classical.choice, Quot.sound |
| `Stochopy.C63_hmc_violated` | propext, Classical.choice, Quot.sound |
| `Stochopy.C64_hmc_partial` | propext, Classical.choice, Quot.sound |
| `Stochopy.C64_violated` | propext, Classical.choice, Quot.sound |
| `Stochopy.Props.C65_cmaes` | propext, Classical.choice, Quot.sound |
| `Stochopy.Props.C65_vdcma` | propext, Classical.choice, Quot.sound |
| `Stochopy.Props.C66_cmaes_error` | propext, Classical.choice, Quot.sound |
| `Stochopy.Props.C66_cmaes` | propext, Classical.choice, Quot.sound |
| `Stochopy.Props.C66_cmaes_callable` | propext, Classical.choice, Quot.sound |
| `Stochopy.Props.C66_vdcma_error` | propext, Classical.choice, Quot.sound |
| `Stochopy.Props.C66_vdcma_partial` | propext, Classical.choice, Quot.sound |
| `Stochopy.Props.C66_vdcma_callable` | propext, Classical.choice, Quot.sound |
| `Stochopy.Props.C66_violated` | propext, Classical.choice, Quot.sound |
| `Stochopy.Props.C67_step` | propext, Classical.choice, Quot.sound |
| `Stochopy.Props.C67_loop` | propext, Classical.choice, Quot.sound |
| `Stochopy.Props.C68_cmaes` | propext, Classical.choice, Quot.sound |
| `Stochopy.Props.C68_vdcma` | propext, Classical.choice, Quot.sound |
| `Stochopy.Props.C68_cmaes_sigma` | propext, Classical.choice, Quot.sound |
| `Stochopy.Props.C68_vdcma_sigma` | propext, Classical.choice, Quot.sound |
| `Stochopy.Props.C69_cmaes` | propext, Classical.choice, Quot.sound |
| `Stochopy.Props.C69_vdcma` | propext, Classical.choice, Quot.sound |
| `Stochopy.Props.C69_cmaes_run` | propext, Classical.choice, Quot.sound |
| `Stochopy.Props.C69_vdcma_run` | propext, Classical.choice, Quot.sound |
| `Stochopy.Props.C70_cmaes` | propext, Classical.choice, Quot.sound |
| `Stochopy.Props.C70_vdcma` | propext, Classical.choice, Quot.sound |
| `Stochopy.Props.C71_de` | propext, Classical.choice, Quot.sound |
| `Stochopy.Props.C71_cpso_partial` | propext, Classical.choice, Quot.sound |
| `Stochopy.Props.C71_pso` | propext, Classical.choice, Quot.sound |
| `Stochopy.Props.C71_na` | propext, Classical.choice, Quot.sound |
| `Stochopy.Props.C71_cpso_violated` | propext, Classical.choice, Quot.sound |
| `Stochopy.Props.C72_de` | propext, Classical.choice, Quot.sound |
| `Stochopy.Props.C72_cpso_partial` | propext, Classical.choice, Quot.sound |
| `Stochopy.Props.C72_pso` | propext, Classical.choice, Quot.sound |
| `Stochopy.Props.C72_na_partial` | propext, Classical.choice, Quot.sound |
| `Stochopy.Props.C72_cmaes` | propext, Classical.choice, Quot.sound |
| `Stochopy.Props.C72_vdcma` | propext, Classical.choice, Quot.sound |
| `Stochopy.Props.C72_cpso_violated` | propext, Classical.choice, Quot.sound |
| `Stochopy.Props.C72_na_violated` | propext, Classical.choice, Quot.sound |
| `Stochopy.Props.C72_mcmc` | propext, Classical.choice, Quot.sound |
| `Stochopy.Props.C72_hmc` | propext, Classical.choice, Quot.sound |
| `Stochopy.Props.C73_de` | propext, Classical.choice, Quot.sound |
| `Stochopy.Props.C73_na` | propext, Classical.choice, Quot.sound |
| `Stochopy.Props.C73_cpso` | propext, Classical.choice, Quot.sound |
| `Stochopy.Props.C73_pso` | propext, Classical.choice, Quot.sound |
| `Stochopy.Props.C73_cmaes` | propext, Classical.choice, Quot.sound |
| `Stochopy.Props.C73_vdcma` | propext, Classical.choice, Quot.sound |
| `Stochopy.Props.C74_cmaes` | propext, Classical.choice, Quot.sound |
| `Stochopy.Props.C74_vdcma` | propext, Classical.choice, Quot.sound |
| `Stochopy.Props.C75_cmaes` | propext, Classical.choice, Quot.sound |
| `Stochopy.Props.C75_vdcma` | propext, Classical.choice, Quot.sound |
| `Stochopy.C76_de` | propext, Classical.choice, Quot.sound |
| `Stochopy.C76_cpso_root` | propext, Classical.choice, Quot.sound |
| `Stochopy.C76_pso_root` | propext, Classical.choice, Quot.sound |
| `Stochopy.C76_na_root` | propext, Classical.choice, Quot.sound |
| `Stochopy.C76_cmaes_root` | propext, Classical.choice, Quot.sound |
| `Stochopy.C76_vdcma_root` | propext, Classical.choice, Quot.sound |
| `Stochopy.C76_cpso_seed_partial` | propext, Classical.choice, Quot.sound |
| `Stochopy.C76_pso_seed_partial` | propext, Classical.choice, Quot.sound |
| `Stochopy.C76_na_seed_partial` | propext, Classical.choice, Quot.sound |
| `Stochopy.C76_cmaes_seed_partial` | propext, Classical.choice, Quot.sound |
| `Stochopy.C76_vdcma_seed_partial` | propext, Classical.choice, Quot.sound |
| `Stochopy.C76_pso_partial` | propext, Classical.choice, Quot.sound |
| `Stochopy.C76_cpso_partial` | propext, Classical.choice, Quot.sound |
| `Stochopy.C76_pso_values` | propext, Classical.choice, Quot.sound |
| `Stochopy.C76_cpso_values_partial` | propext, Classical.choice, Quot.sound |
| `Stochopy.C76_na_values` | propext, Classical.choice, Quot.sound |
| `Stochopy.C76_pso_violated` | propext, Classical.choice, Quot.sound |
| `Stochopy.C76_cpso_violated` | propext, Classical.choice, Quot.sound |
| `Stochopy.C76_na_violated` | propext, Classical.choice, Quot.sound |
| `Stochopy.C76_cmaes_violated` | propext, Classical.choice, Quot.sound |
| `Stochopy.C76_vdcma_violated` | propext, Classical.choice, Quot.sound |
| `Stochopy.C76_cmaes_deadlock_violated` | propext, Classical.choice, Quot.sound |
| `Stochopy.Props.C77_cmaes` | propext, Classical.choice, Quot.sound |
| `Stochopy.Props.C77_vdcma` | propext, Classical.choice, Quot.sound |
| `Stochopy.C78_de` | propext, Classical.choice, Quot.sound |
| `Stochopy.C78_de_unique` | propext, Classical.choice, Quot.sound |
| `Stochopy.C79_cpso` | propext, Classical.choice, Quot.sound |
| `Stochopy.C79_pso` | propext, Classical.choice, Quot.sound |
| `Stochopy.C79_pso_norestart` | propext, Classical.choice, Quot.sound |
| `Stochopy.C79_unique` | propext, Classical.choice, Quot.sound |
| `Stochopy.C80_na` | propext, Classical.choice, Quot.sound |
| `Stochopy.C80_na_unique` | propext, Classical.choice, Quot.sound |
| `Stochopy.C80_na_slice` | propext, Classical.choice, Quot.sound |
| `Stochopy.C81_mcmc` | propext, Classical.choice, Quot.sound |
| `Stochopy.C81_mcmc_unique` | propext, Classical.choice, Quot.sound |
| `Stochopy.C81_exact` | propext, Classical.choice, Quot.sound |
| `Stochopy.C82_hmc` | propext, Classical.choice, Quot.sound |
| `Stochopy.C82_hmc_unique` | propext, Classical.choice, Quot.sound |
| `Stochopy.C82_exact` | propext, Quot.sound |
| `Stochopy.C83_pso_violated` | propext, Classical.choice, Quot.sound |
| `Stochopy.C83_pso_far_violated` | propext, Classical.choice, Quot.sound |
| `Stochopy.C83_shrink_partial` | propext, Classical.choice, Quot.sound |
| `Stochopy.C84_na_violated` | propext, Classical.choice, Quot.sound |
| `Stochopy.C84_na_partial` | propext, Classical.choice, Quot.sound |
| `Stochopy.C85_lhs_violated` | propext, Classical.choice, Quot.sound |
| `Stochopy.C85_lhs_partial` | propext, Classical.choice, Quot.sound |
| `Stochopy.C85_lhs_error_partial` | propext, Classical.choice, Quot.sound |
| `Stochopy.C86_de` | propext, Classical.choice, Quot.sound |
| `Stochopy.C86_de_lhs` | propext, Classical.choice, Quot.sound |
| `Stochopy.C87_gradient_violated` | propext, Classical.choice, Quot.sound |
| `Stochopy.C87_zero_violated` | propext, Classical.choice, Quot.sound |
| `Stochopy.C87_hmc_violated` | propext, Classical.choice, Quot.sound |
| `Stochopy.C87_exact_partial` | propext, Classical.choice, Quot.sound |
| `Stochopy.C87_double_partial` | propext, Classical.choice, Quot.sound |
| `Stochopy.C88_mcmc` | propext, Classical.choice, Quot.sound |
| `Stochopy.C88_hmc` | propext, Classical.choice, Quot.sound |
| `Stochopy.C89_cmaes_violated` | propext, Classical.choice, Quot.sound |
| `Stochopy.C89_vdcma_violated` | propext, Classical.choice, Quot.sound |
| `Stochopy.C89_cmaes_inside_violated` | propext, Classical.choice, Quot.sound |
| `Stochopy.C89_vdcma_inside_violated` | propext, Classical.choice, Quot.sound |
| `Stochopy.C89_cmaes_partial` | propext, Classical.choice, Quot.sound |
| `Stochopy.C89_vdcma_partial` | propext, Classical.choice, Quot.sound |
| `Stochopy.C90_memory` | propext, Quot.sound |
| `Stochopy.C90_na` | propext, Classical.choice, Quot.sound |
| `Stochopy.C90_cpso_partial` | propext, Classical.choice, Quot.sound |
| `Stochopy.C90_pso_partial` | propext, Classical.choice, Quot.sound |
| `Stochopy.C90_cpso_restarts_partial` | propext, Classical.choice, Quot.sound |
| `Stochopy.C90_de_partial` | propext, Classical.choice, Quot.sound |
| `Stochopy.C90_cpso_immediate_partial` | propext, Classical.choice, Quot.sound |
| `Stochopy.C90_pso_immediate_partial` | propext, Classical.choice, Quot.sound |
| `Stochopy.C90_de_x0` | propext, Classical.choice, Quot.sound |
| `Stochopy.C90_cpso_x0` | propext, Classical.choice, Quot.sound |
| `Stochopy.C90_de_violated` | propext, Classical.choice, Quot.sound |
| `Stochopy.C90_pso_violated` | propext, Classical.choice, Quot.sound |
| `Stochopy.C90_cpso_violated` | propext, Classical.choice, Quot.sound |
| `Stochopy.C91_floats` | propext, Quot.sound |
| `Stochopy.C91_lists_raise` | propext, Classical.choice, Quot.sound |
| `Stochopy.C91_de_grid` | propext, Classical.choice, Quot.sound |
| `Stochopy.C91_de_immediate_partial` | propext, Classical.choice, Quot.sound |
| `Stochopy.C91_de_deferred_partial` | propext, Classical.choice, Quot.sound |
| `Stochopy.C91_cpso_grid` | propext, Classical.choice, Quot.sound |
| `Stochopy.C91_pso_grid` | propext, Classical.choice, Quot.sound |
| `Stochopy.C91_cpso_immediate_partial` | propext, Classical.choice, Quot.sound |
| `Stochopy.C91_pso_immediate_partial` | propext, Classical.choice, Quot.sound |
| `Stochopy.C91_cpso_deferred_partial` | propext, Classical.choice, Quot.sound |
| `Stochopy.C91_pso_deferred_partial` | propext, Classical.choice, Quot.sound |
| `Stochopy.C91_de_violated` | propext, Classical.choice, Quot.sound |
| `Stochopy.C91_pso_violated` | propext, Classical.choice, Quot.sound |
| `Stochopy.C91_cpso_violated` | propext, Classical.choice, Quot.sound |
| `Stochopy.C91_value_violated` | propext, Classical.choice, Quot.sound |
| `Stochopy.C91_box_violated` | propext, Classical.choice, Quot.sound |
| `Stochopy.C91_lists_violated` | propext, Classical.choice, Quot.sound |
| `Stochopy.C92_floats` | propext, Classical.choice, Quot.sound |
| `Stochopy.C92_mpi` | propext, Classical.choice, Quot.sound |
| `Stochopy.C92_de_ints` | propext, Classical.choice, Quot.sound |
| `Stochopy.C92_cpso_ints_partial` | propext, Classical.choice, Quot.sound |
| `Stochopy.C92_pso_ints` | propext, Classical.choice, Quot.sound |
| `Stochopy.C92_na_ints` | propext, Classical.choice, Quot.sound |
| `Stochopy.C92_de_immediate_partial` | propext, Classical.choice, Quot.sound |
| `Stochopy.C92_cpso_immediate_partial` | propext, Classical.choice, Quot.sound |
| `Stochopy.C92_pso_immediate_partial` | propext, Classical.choice, Quot.sound |
| `Stochopy.C92_de_deferred_partial` | propext, Classical.choice, Quot.sound |
| `Stochopy.C92_cpso_deferred_partial` | propext, Classical.choice, Quot.sound |
| `Stochopy.C92_pso_deferred_partial` | propext, Classical.choice, Quot.sound |
| `Stochopy.C92_na_deferred_partial` | propext, Classical.choice, Quot.sound |
| `Stochopy.C92_cmaes_partial` | propext, Classical.choice, Quot.sound |
| `Stochopy.C92_vdcma_partial` | propext, Classical.choice, Quot.sound |
| `Stochopy.C92_penalize_raises` | propext, Classical.choice, Quot.sound |
| `Stochopy.C92_types_violated` | propext, Classical.choice, Quot.sound |
| `Stochopy.C92_value_violated` | propext, Classical.choice, Quot.sound |
| `Stochopy.C92_cpso_violated` | propext, Classical.choice, Quot.sound |
| `Stochopy.C92_penalize_violated` | propext, Classical.choice, Quot.sound |
| `Stochopy.C93_same_de` | propext, Classical.choice, Quot.sound |
| `Stochopy.C93_same_cpso` | propext, Classical.choice, Quot.sound |
| `Stochopy.C93_same_pso` | propext, Classical.choice, Quot.sound |
| `Stochopy.C93_same_na` | propext, Classical.choice, Quot.sound |
| `Stochopy.C93_answer_de` | propext, Classical.choice, Quot.sound |
| `Stochopy.C93_answer_cpso` | propext, Classical.choice, Quot.sound |
| `Stochopy.C93_answer_pso` | propext, Classical.choice, Quot.sound |
| `Stochopy.C93_answer_na` | propext, Classical.choice, Quot.sound |
| `Stochopy.C93_best_de` | propext, Classical.choice, Quot.sound |
| `Stochopy.C93_best_cpso` | propext, Classical.choice, Quot.sound |
| `Stochopy.C93_best_pso` | propext, Classical.choice, Quot.sound |
| `Stochopy.C93_best_na` | propext, Classical.choice, Quot.sound |
| `Stochopy.C93_mono_de` | propext, Classical.choice, Quot.sound |
| `Stochopy.C93_mono_cpso` | propext, Classical.choice, Quot.sound |
| `Stochopy.C93_mono_pso` | propext, Classical.choice, Quot.sound |
| `Stochopy.C93_mono_na` | propext, Classical.choice, Quot.sound |
| `Stochopy.C93_same_cmaes` | propext, Classical.choice, Quot.sound |
| `Stochopy.C93_same_vdcma` | propext, Classical.choice, Quot.sound |
| `Stochopy.C93_answer_cmaes` | propext, Classical.choice, Quot.sound |
| `Stochopy.C93_answer_vdcma` | propext, Classical.choice, Quot.sound |
| `Stochopy.C93_counts_cmaes` | propext, Classical.choice, Quot.sound |
| `Stochopy.C93_counts_vdcma` | propext, Classical.choice, Quot.sound |
| `Stochopy.C93_runs` | propext, Classical.choice, Quot.sound |
| `Stochopy.C94_de` | propext, Classical.choice, Quot.sound |
| `Stochopy.C94_cpso` | propext, Classical.choice, Quot.sound |
| `Stochopy.C94_pso` | propext, Classical.choice, Quot.sound |
| `Stochopy.C94_na` | propext, Classical.choice, Quot.sound |
| `Stochopy.C94_cmaes_partial` | propext, Classical.choice, Quot.sound |
| `Stochopy.C94_vdcma_partial` | propext, Classical.choice, Quot.sound |
| `Stochopy.C94_firstGen_violated` | propext |
| `Stochopy.C94_cpso_shrink` | propext, Classical.choice, Quot.sound |
| `Stochopy.C94_pso_shrink` | propext, Classical.choice, Quot.sound |
| `Stochopy.C94_cmaes_firstGen` | propext, Classical.choice, Quot.sound |
| `Stochopy.C94_vdcma_firstGen` | propext, Classical.choice, Quot.sound |
| `Stochopy.C94_mcmc` | propext, Quot.sound |
| `Stochopy.C94_hmc_partial` | propext, Classical.choice, Quot.sound |
| `Stochopy.C94_hmc_violated` | propext, Classical.choice, Quot.sound |
| `Stochopy.C94_hmc_evals_violated` | propext, Classical.choice, Quot.sound |
| `Stochopy.C95_reach` | propext, Classical.choice, Quot.sound |
| `Stochopy.C95_mcmc_kernel` | propext, Classical.choice, Quot.sound |
| `Stochopy.C95_mcmc` | propext, Classical.choice, Quot.sound |
| `Stochopy.C95_reject_violated` | propext, Classical.choice, Quot.sound |
| `Stochopy.C95_hmc_partial` | propext, Classical.choice, Quot.sound |
| `Stochopy.C95_hmc_period` | propext, Classical.choice, Quot.sound |
| `Stochopy.C95_hmc_violated` | propext, Classical.choice, Quot.sound |
| `Stochopy.C95_hmc_kernel_violated` | propext, Classical.choice, Quot.sound |
| `Stochopy.C95_cmaes` | propext, Classical.choice, Quot.sound |
| `Stochopy.C95_vdcma` | propext, Classical.choice, Quot.sound |
| `Stochopy.C96_mcmc_kernel_start` | propext, Classical.choice, Quot.sound |
| `Stochopy.C96_mcmc_start` | propext, Classical.choice, Quot.sound |
| `Stochopy.C96_mcmc_x0_violated` | propext, Classical.choice, Quot.sound |
| `Stochopy.C96_mcmc_kernel` | propext, Classical.choice, Quot.sound |
| `Stochopy.C96_mcmc` | propext, Classical.choice, Quot.sound |
| `Stochopy.C96_mcmc_x0` | propext, Classical.choice, Quot.sound |
| `Stochopy.C96_mcmc_value` | propext, Classical.choice, Quot.sound |
| `Stochopy.C96_hmc_kernel_partial` | propext, Classical.choice, Quot.sound |
| `Stochopy.C96_hmc_partial` | propext, Classical.choice, Quot.sound |
| `Stochopy.C96_hmc_x0_partial` | propext, Classical.choice, Quot.sound |
| `Stochopy.C96_hmc_violated` | propext, Classical.choice, Quot.sound |
| `Stochopy.C96_flat_violated` | propext, Classical.choice, Quot.sound |
| `Stochopy.C97_kernel_partial` | propext, Classical.choice, Quot.sound |
| `Stochopy.C97_inertia_kernel_violated` | propext, Classical.choice, Quot.sound |
| `Stochopy.C97_apart_kernel_violated` | propext, Classical.choice, Quot.sound |
| `Stochopy.C97_pso_partial` | propext, Classical.choice, Quot.sound |
| `Stochopy.C97_apart_violated` | propext, Classical.choice, Quot.sound |
| `Stochopy.C97_inertia_violated` | propext, Classical.choice, Quot.sound |
| `Stochopy.Props.C98_de_partial` | propext, Classical.choice, Quot.sound |
| `Stochopy.Props.C98_cpso_partial` | propext, Classical.choice, Quot.sound |
| `Stochopy.Props.C98_pso_partial` | propext, Classical.choice, Quot.sound |
| `Stochopy.Props.C98_cmaes_partial` | propext, Classical.choice, Quot.sound |
| `Stochopy.Props.C98_vdcma_partial` | propext, Classical.choice, Quot.sound |
| `Stochopy.Props.C98_cmaes_law_partial` | propext, Classical.choice, Quot.sound |
| `Stochopy.Props.C98_vdcma_law_partial` | propext, Classical.choice, Quot.sound |
| `Stochopy.Props.C98_mcmc_law` | propext, Classical.choice, Quot.sound |
| `Stochopy.Props.C98_hmc_law` | propext, Classical.choice, Quot.sound |
| `Stochopy.Props.C98_na_partial` | propext, Classical.choice, Quot.sound |
| `Stochopy.Props.C98_de_violated` | propext, Classical.choice, Quot.sound |
| `Stochopy.Props.C98_cpso_violated` | propext, Classical.choice, Quot.sound |
| `Stochopy.Props.C98_pso_violated` | propext, Classical.choice, Quot.sound |
| `Stochopy.Props.C98_na_violated` | propext, Classical.choice, Quot.sound |
| `Stochopy.Props.C98_cmaes_violated` | propext, Classical.choice, Quot.sound |
| `Stochopy.Props.C98_vdcma_violated` | propext, Classical.choice, Quot.sound |
| `Stochopy.Props.C98_mcmc_partial` | propext, Classical.choice, Quot.sound |
| `Stochopy.Props.C98_hmc_partial` | propext, Classical.choice, Quot.sound |
| `Stochopy.Props.C99_cmaes` | propext, Classical.choice, Quot.sound |
| `Stochopy.Props.C99_normals` | propext, Classical.choice, Quot.sound |
| `Stochopy.Props.C100_de_isometry` | propext, Classical.choice, Quot.sound |
| `Stochopy.Props.C100_de_linear` | propext, Classical.choice, Quot.sound |
| `Stochopy.Props.C100_de_needs_full` | propext, Classical.choice, Quot.sound |
| `Stochopy.Props.C100_mcmc` | propext, Classical.choice, Quot.sound |
| `Stochopy.Props.C100_hmc` | propext, Classical.choice, Quot.sound |
| `Stochopy.Props.C100_hmc_cubic` | propext, Classical.choice, Quot.sound |
| `Stochopy.Props.C100_mcmc_law` | propext, Classical.choice, Quot.sound |
| `Stochopy.Props.C100_hmc_law` | propext, Classical.choice, Quot.sound |
| `Stochopy.C101_mcmc_kernel` | propext, Classical.choice, Quot.sound |
| `Stochopy.C101_mcmc_kernel_start` | propext, Classical.choice, Quot.sound |
| `Stochopy.C101_hmc_kernel_partial` | propext, Classical.choice, Quot.sound |
| `Stochopy.C101_mcmc` | propext, Classical.choice, Quot.sound |
| `Stochopy.C101_mcmc_x0` | propext, Classical.choice, Quot.sound |
| `Stochopy.C101_mcmc_start` | propext, Classical.choice, Quot.sound |
| `Stochopy.C101_hmc_partial` | propext, Classical.choice, Quot.sound |
| `Stochopy.C101_hmc_x0_partial` | propext, Classical.choice, Quot.sound |
| `Stochopy.C101_hmc_violated` | propext, Classical.choice, Quot.sound |
| `Stochopy.C101_mcmc_x0_violated` | propext, Classical.choice, Quot.sound |
| `Stochopy.C102_mcmc_x0_violated` | propext, Classical.choice, Quot.sound |
| `Stochopy.C102_mcmc_kernel_start` | propext, Classical.choice, Quot.sound |
| `Stochopy.C102_mcmc_kernel` | propext, Classical.choice, Quot.sound |
| `Stochopy.C102_mcmc_kernel_x0` | propext, Classical.choice, Quot.sound |
| `Stochopy.C102_hmc_kernel_partial` | propext, Classical.choice, Quot.sound |
| `Stochopy.C102_mcmc_start` | propext, Classical.choice, Quot.sound |
| `Stochopy.C102_mcmc_x0` | propext, Classical.choice, Quot.sound |
| `Stochopy.C102_mcmc` | propext, Classical.choice, Quot.sound |
| `Stochopy.C102_hmc_x0_partial` | propext, Classical.choice, Quot.sound |
| `Stochopy.C102_hmc_partial` | propext, Classical.choice, Quot.sound |
| `Stochopy.C102_hmc_violated` | propext, Classical.choice, Quot.sound |
| `Stochopy.C103_na` | propext, Quot.sound |
| `Stochopy.C103_same_de_partial` | propext, Quot.sound |
| `Stochopy.C103_same_cpso_partial` | propext, Quot.sound |
| `Stochopy.C103_same_pso_partial` | propext, Quot.sound |
| `Stochopy.C103_point_de_partial` | propext, Classical.choice, Quot.sound |
| `Stochopy.C103_point_cpso_partial` | propext, Classical.choice, Quot.sound |
| `Stochopy.C103_point_pso_partial` | propext, Classical.choice, Quot.sound |
| `Stochopy.C103_clip_de_partial` | propext, Classical.choice, Quot.sound |
| `Stochopy.C103_clip_cpso_partial` | propext, Classical.choice, Quot.sound |
| `Stochopy.C103_clip_pso_partial` | propext, Classical.choice, Quot.sound |
| `Stochopy.C103_same_mcmc_partial` | propext, Quot.sound |
| `Stochopy.C103_same_hmc_partial` | propext, Quot.sound |
| `Stochopy.C103_point_mcmc_partial` | propext, Classical.choice, Quot.sound |
| `Stochopy.C103_point_hmc_partial` | propext, Classical.choice, Quot.sound |
| `Stochopy.C103_de_violated` | propext, Classical.choice, Quot.sound |
| `Stochopy.C103_cpso_violated` | propext, Classical.choice, Quot.sound |
| `Stochopy.C103_pso_violated` | propext, Classical.choice, Quot.sound |
| `Stochopy.C103_mcmc_violated` | propext, Classical.choice, Quot.sound |
| `Stochopy.C103_hmc_violated` | propext, Classical.choice, Quot.sound |
| `Stochopy.Props.C104_de` | propext, Classical.choice, Quot.sound |
| `Stochopy.Props.C104_cpso` | propext, Classical.choice, Quot.sound |
| `Stochopy.Props.C104_pso` | propext, Classical.choice, Quot.sound |
| `Stochopy.Props.C104_vdcma` | propext, Classical.choice, Quot.sound |
| `Stochopy.Props.C104_mcmc_violated` | propext, Classical.choice, Quot.sound |
| `Stochopy.Props.C104_na_violated` | propext, Classical.choice, Quot.sound |
| `Stochopy.Props.C104_mcmc_partial` | propext, Classical.choice, Quot.sound |
| `Stochopy.Props.C104_hmc` | propext, Classical.choice, Quot.sound |
| `Stochopy.C105_de` | propext, Classical.choice, Quot.sound |
| `Stochopy.C105_cpso` | propext, Classical.choice, Quot.sound |
| `Stochopy.C105_pso` | propext, Classical.choice, Quot.sound |
| `Stochopy.C105_na` | propext, Classical.choice, Quot.sound |
| `Stochopy.C105_cmaes` | propext, Classical.choice, Quot.sound |
| `Stochopy.C105_vdcma` | propext, Classical.choice, Quot.sound |
| `Stochopy.C105_whole_de` | propext, Classical.choice, Quot.sound |
| `Stochopy.C105_whole_cpso` | propext, Classical.choice, Quot.sound |
| `Stochopy.C105_whole_pso` | propext, Classical.choice, Quot.sound |
| `Stochopy.C105_whole_na` | propext, Classical.choice, Quot.sound |
| `Stochopy.C105_whole_cmaes` | propext, Classical.choice, Quot.sound |
| `Stochopy.C105_whole_vdcma` | propext, Classical.choice, Quot.sound |
| `Stochopy.C105_function_de` | propext, Classical.choice, Quot.sound |
| `Stochopy.C105_function_cpso` | propext, Classical.choice, Quot.sound |
| `Stochopy.C105_function_pso` | propext, Classical.choice, Quot.sound |
| `Stochopy.C105_function_na` | propext, Classical.choice, Quot.sound |
| `Stochopy.C105_function_cmaes` | propext, Classical.choice, Quot.sound |
| `Stochopy.C105_function_vdcma` | propext, Classical.choice, Quot.sound |
| `Stochopy.C105_mcmc` | propext, Quot.sound |
| `Stochopy.C105_function_mcmc` | propext, Quot.sound |
| `Stochopy.C105_hmc` | propext, Classical.choice, Quot.sound |
| `Stochopy.C105_function_hmc` | propext, Classical.choice, Quot.sound |
| `Stochopy.C105_runs` | propext, Classical.choice, Quot.sound |
| `Stochopy.C105_chains` | propext, Classical.choice, Quot.sound |
| `Stochopy.C106_scalar_cmaes` | propext, Classical.choice, Quot.sound |
| `Stochopy.C106_scalar_vdcma` | propext, Classical.choice, Quot.sound |
| `Stochopy.C106_cmaes_violated` | propext, Classical.choice, Quot.sound |
| `Stochopy.C106_vdcma_violated` | propext, Classical.choice, Quot.sound |
| `Stochopy.C106_positive_cmaes` | propext, Classical.choice, Quot.sound |
| `Stochopy.C106_positive_vdcma` | propext, Classical.choice, Quot.sound |
| `Stochopy.C106_cmaes_partial` | propext, Classical.choice, Quot.sound |
| `Stochopy.C106_vdcma_partial` | propext, Classical.choice, Quot.sound |
| `Stochopy.C106_two_steps` | propext, Classical.choice, Quot.sound |
| `Stochopy.C106_overwritten_violated` | propext, Classical.choice, Quot.sound |
| `Stochopy.C106_scale_violated` | propext, Classical.choice, Quot.sound |
| `Stochopy.C107_mcmc_kernel` | propext, Classical.choice, Quot.sound |
| `Stochopy.C107_mcmc_kernel_start` | propext, Classical.choice, Quot.sound |
| `Stochopy.C107_hmc_kernel_partial` | propext, Classical.choice, Quot.sound |
| `Stochopy.C107_mcmc` | propext, Classical.choice, Quot.sound |
| `Stochopy.C107_mcmc_x0` | propext, Classical.choice, Quot.sound |
| `Stochopy.C107_mcmc_start` | propext, Classical.choice, Quot.sound |
| `Stochopy.C107_hmc_partial` | propext, Classical.choice, Quot.sound |
| `Stochopy.C107_hmc_x0_partial` | propext, Classical.choice, Quot.sound |
| `Stochopy.C107_mcmc_violated` | propext, Classical.choice, Quot.sound |
| `Stochopy.C107_hmc_violated` | propext, Classical.choice, Quot.sound |
| `Stochopy.C107_mcmc_rate` | propext, Classical.choice, Quot.sound |
| `Stochopy.C107_hmc_rate` | propext, Classical.choice, Quot.sound |
| `Stochopy.C108_mcmc_answers` | propext, Classical.choice, Quot.sound |
| `Stochopy.C108_mcmc_returns` | propext, Classical.choice, Quot.sound |
| `Stochopy.C108_hmc_answers` | propext, Classical.choice, Quot.sound |
| `Stochopy.C108_hmc_returns` | propext, Classical.choice, Quot.sound |
| `Stochopy.C108_mcmc_total` | propext, Classical.choice, Quot.sound |
| `Stochopy.C108_hmc_total` | propext, Classical.choice, Quot.sound |
| `Stochopy.C108_same_mcmc` | propext, Quot.sound |
| `Stochopy.C108_same_hmc` | propext, Quot.sound |
| `Stochopy.C108_hmc` | propext, Classical.choice, Quot.sound |
| `Stochopy.C108_mcmc` | propext, Classical.choice, Quot.sound |
| `Stochopy.C108_hmc_test_violated` | propext, Classical.choice, Quot.sound |
| `Stochopy.C108_hmc_moves` | propext, Classical.choice, Quot.sound |
| `Stochopy.C109_mcmc_kernel` | propext, Classical.choice, Quot.sound |
| `Stochopy.C109_mcmc` | propext, Classical.choice, Quot.sound |
| `Stochopy.C109_mcmc_random` | propext, Classical.choice, Quot.sound |
| `Stochopy.C109_additive` | propext, Classical.choice, Quot.sound |
| `Stochopy.C109_bias_violated` | propext, Classical.choice, Quot.sound |
| `Stochopy.C109_returns` | propext, Classical.choice, Quot.sound |
| `Stochopy.C109_blocks_kernel` | propext, Classical.choice, Quot.sound |
| `Stochopy.C109_blocks` | propext, Classical.choice, Quot.sound |
| `Stochopy.C109_blocks_x0` | propext, Classical.choice, Quot.sound |
| `Stochopy.C109_blocks_additive` | propext, Classical.choice, Quot.sound |
| `Stochopy.C109_blocks_returns` | propext, Classical.choice, Quot.sound |
| `Stochopy.C110_same_de` | propext, Classical.choice, Quot.sound |
| `Stochopy.C110_same_cpso` | propext, Classical.choice, Quot.sound |
| `Stochopy.C110_same_pso` | propext, Classical.choice, Quot.sound |
| `Stochopy.C110_cpso` | propext, Classical.choice, Quot.sound |
| `Stochopy.C110_pso` | propext, Classical.choice, Quot.sound |
| `Stochopy.C110_best_de_partial` | propext, Classical.choice, Quot.sound |
| `Stochopy.C110_point_de_partial` | propext, Classical.choice, Quot.sound |
| `Stochopy.C110_value_de_partial` | propext, Classical.choice, Quot.sound |
| `Stochopy.C110_same_mcmc` | propext, Classical.choice, Quot.sound |
| `Stochopy.C110_same_hmc` | propext, Classical.choice, Quot.sound |
| `Stochopy.C110_value_mcmc_partial` | propext, Classical.choice, Quot.sound |
| `Stochopy.C110_value_hmc_partial` | propext, Classical.choice, Quot.sound |
| `Stochopy.C110_de_violated` | propext, Classical.choice, Quot.sound |
| `Stochopy.C110_mcmc_violated` | propext, Classical.choice, Quot.sound |
| `Stochopy.C110_hmc_violated` | propext, Classical.choice, Quot.sound |
| `Stochopy.C111_same_de` | propext, Classical.choice, Quot.sound |
| `Stochopy.C111_same_cpso` | propext, Classical.choice, Quot.sound |
| `Stochopy.C111_same_pso` | propext, Classical.choice, Quot.sound |
| `Stochopy.C111_best_de_partial` | propext, Classical.choice, Quot.sound |
| `Stochopy.C111_best_cpso_partial` | propext, Classical.choice, Quot.sound |
| `Stochopy.C111_best_pso_partial` | propext, Classical.choice, Quot.sound |
| `Stochopy.C111_point_de_partial` | propext, Classical.choice, Quot.sound |
| `Stochopy.C111_point_cpso_partial` | propext, Classical.choice, Quot.sound |
| `Stochopy.C111_point_pso_partial` | propext, Classical.choice, Quot.sound |
| `Stochopy.C111_de_violated` | propext, Classical.choice, Quot.sound |
| `Stochopy.C111_pso_violated` | propext, Classical.choice, Quot.sound |
| `Stochopy.C111_cpso_violated` | propext, Classical.choice, Quot.sound |
| `Stochopy.C111_early_violated` | propext, Classical.choice, Quot.sound |
| `Stochopy.C112_mcmc_partial` | propext, Classical.choice, Quot.sound |
| `Stochopy.C112_hmc_partial` | propext, Classical.choice, Quot.sound |
| `Stochopy.C112_value_mcmc_partial` | propext, Classical.choice, Quot.sound |
| `Stochopy.C112_value_hmc_partial` | propext, Classical.choice, Quot.sound |
| `Stochopy.C112_mcmc_violated` | propext, Classical.choice, Quot.sound |
| `Stochopy.C112_hmc_violated` | propext, Classical.choice, Quot.sound |
| `Stochopy.C112_hmc_best_violated` | propext, Classical.choice, Quot.sound |
| `Stochopy.C113_de` | propext, Classical.choice, Quot.sound |
| `Stochopy.C113_cpso` | propext, Classical.choice, Quot.sound |
| `Stochopy.C113_pso` | propext, Classical.choice, Quot.sound |
| `Stochopy.C113_na` | propext, Classical.choice, Quot.sound |
| `Stochopy.C113_cmaes` | propext, Classical.choice, Quot.sound |
| `Stochopy.C113_vdcma` | propext, Classical.choice, Quot.sound |
| `Stochopy.C113_mcmc` | propext, Classical.choice, Quot.sound |
| `Stochopy.C113_hmc` | propext, Classical.choice, Quot.sound |
| `Stochopy.C114_de` | propext, Classical.choice, Quot.sound |
| `Stochopy.C114_cpso` | propext, Classical.choice, Quot.sound |
| `Stochopy.C114_pso` | propext, Classical.choice, Quot.sound |
| `Stochopy.C114_na` | propext, Classical.choice, Quot.sound |
| `Stochopy.C114_cmaes` | propext, Classical.choice, Quot.sound |
| `Stochopy.C114_vdcma` | propext, Classical.choice, Quot.sound |
| `Stochopy.C114_same` | propext, Quot.sound |
| `Stochopy.C114_kept` | propext, Classical.choice, Quot.sound |
