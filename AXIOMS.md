# Axioms used by the theorems named in MANIFEST.json

Produced by `#print axioms`.  P = `propext`, C = `Classical.choice`, Q = `Quot.sound`; — = none.  No other axiom occurs.

| property | theorem | axioms |
|---|---|---|
| C01 | `FL.compare_decides` | C Q P |
| C01 | `FL.compare_trichotomy` | C Q P |
| C01 | `FL.compare_laws` | C Q P |
| C01 | `FL.isEq_not_transitive` | C Q P |
| C02 | `FL.min_max_nan` | C Q P |
| C02 | `FL.min_max_lattice` | C Q P |
| C02 | `FL.min_max_algebra` | C Q P |
| C02 | `FL.bound_spec` | C Q P |
| C02 | `FL.bound_monotone` | C Q P |
| C03 | `FL.Op.increment_enumerates` | C Q P |
| C03 | `FL.Op.box_exact` | C Q P |
| C03 | `FL.Op.box_length` | Q P |
| C04 | `FL.Op.join_split` | Q P |
| C04 | `FL.Op.split_pieces_free` | Q P |
| C04 | `FL.Op.split_ignoreEmpty` | Q P |
| C04 | `FL.Op.split_join` | Q P |
| C04 | `FL.Op.trim_spec` | Q P |
| C04 | `FL.Op.trim_ends` | Q P |
| C04 | `FL.Op.trim_idempotent` | Q P |
| C04 | `FL.Op.trim_empty_iff` | Q P |
| C05 | `FL.Op.validName_partial` | C Q P |
| C05 | `FL.Op.validName_empty_violated` | P |
| C06 | `FL.tnorm_range_comm` | C Q P |
| C07 | `FL.tnorm_zero` | C Q P |
| C07 | `FL.TNormKind.compute_fin` | C Q P |
| C07 | `FL.tnorm_one_partial` | C Q P |
| C07 | `FL.tnorm_one_nilpotent_violated` | C Q P |
| C07 | `FL.tnorm_one_nilpotent_partial` | C Q P |
| C08 | `FL.tnorm_monotone` | C Q P |
| C08 | `FL.tnorm_associative_partial` | C Q P |
| C08 | `FL.tnorm_hamacher_associative_partial` | C Q P |
| C08 | `FL.tnorm_hamacher_associative_violated` | C Q P |
| C09 | `FL.snorm_range_comm` | C Q P |
| C09 | `FL.unboundedSum_range` | C Q P |
| C10 | `FL.snorm_one` | C Q P |
| C10 | `FL.SNormKind.compute_fin` | C Q P |
| C10 | `FL.snorm_zero_partial` | C Q P |
| C10 | `FL.snorm_zero_nilpotent_violated` | C Q P |
| C10 | `FL.snorm_zero_nilpotent_partial` | C Q P |
| C11 | `FL.snorm_monotone` | C Q P |
| C11 | `FL.snorm_associative_partial` | C Q P |
| C11 | `FL.snorm_hamacher_associative_partial` | C Q P |
| C11 | `FL.snorm_hamacher_associative_violated` | C Q P |
| C12 | `FL.demorgan_partial` | C Q P |
| C12 | `FL.demorgan_hamacher_partial` | C Q P |
| C12 | `FL.demorgan_hamacher_violated` | C Q P |
| C13 | `FL.hedge_range` | C Q P |
| C13 | `FL.HedgeKind.hedge_fin` | C Q P |
| C13 | `FL.hedge_crisp` | C Q P |
| C13 | `FL.hedge_monotone_partial` | C Q P |
| C13 | `FL.hedge_extremely_monotone_partial` | C Q P |
| C13 | `FL.hedge_extremely_monotone_violated` | C Q P |
| C13 | `FL.hedge_very_somewhat` | C Q P |
| C13 | `FL.hedge_inverses` | C Q P |
| C13 | `FL.hedge_extremely_seldom_partial` | C Q P |
| C13 | `FL.hedge_extremely_seldom_violated` | C Q P |
| C14 | `FL.Shape.membership_fin` | C Q P |
| C14 | `FL.Shape.membership_inf` | C Q P |
| C14 | `FL.Shape.membership_range_partial` | C Q P |
| C14 | `FL.Shape.membership_range_inf` | C Q P |
| C14 | `FL.Shape.membership_range_shoulder` | C Q P |
| C14 | `FL.Shape.triangle_negative_violated` | C Q P |
| C14 | `FL.Shape.trapezoid_negative_violated` | C Q P |
| C14 | `FL.Shape.sShape_zShape_range_violated` | C Q P |
| C14 | `FL.Shape.concave_negative_violated` | C Q P |
| C15 | `FL.Term.membership_nan` | C Q P |
| C15 | `FL.Shape.membership_nan` | C Q P |
| C15 | `FL.Aggregated.membership_nan` | C Q P |
| C15 | `FL.RuleBlock.proposition_nan` | C Q P |
| C15 | `FL.RuleBlock.nan_not_triggered` | C Q P |
| C15 | `FL.RuleBlock.proportional_nan` | C Q P |
| C16 | `FL.Shape.membership_fin` | C Q P |
| C16 | `FL.Shape.core_height` | C Q P |
| C16 | `FL.Shape.outside_zero` | C Q P |
| C16 | `FL.Shape.peak_symmetric_strict` | C Q P |
| C16 | `FL.Shape.linear_edges` | C Q P |
| C17 | `FL.Shape.monotonic_terms_partial` | C Q P |
| C17 | `FL.Shape.sShape_zShape_monotone_partial` | C Q P |
| C17 | `FL.Shape.sShape_monotone_violated` | C Q P |
| C18 | `FL.Shape.tsukamoto_fin` | C Q P |
| C18 | `FL.Shape.tsukamoto_right_inverse_partial` | C Q P |
| C18 | `FL.Shape.tsukamoto_left_inverse_partial` | C Q P |
| C18 | `FL.Shape.tsukamoto_ramp_violated` | C Q P |
| C18 | `FL.Shape.tsukamoto_iff_monotonic` | Q P |
| C18 | `FL.Shape.direction_spec` | C Q P |
| C19 | `FL.Discrete.membership_between` | C Q P |
| C19 | `FL.Discrete.membership_outside` | C Q P |
| C19 | `FL.Discrete.membership_at_partial` | C Q P |
| C19 | `FL.Discrete.membership_at_violated` | C Q P |
| C19 | `FL.Discrete.membership_bounded` | C Q P |
| C19 | `FL.Discrete.membership_unsorted` | C Q P |
| C19 | `FL.Discrete.toPairs_toVector` | P |
| C19 | `FL.Discrete.toVector_toPairs` | Q P |
| C19 | `FL.Discrete.toPairsFill_spec` | Q P |
| C20 | `FL.Aggregated.membership_empty` | C Q P |
| C20 | `FL.Aggregated.membership_bounded` | C Q P |
| C20 | `FL.Aggregated.membership_unboundedSum` | C Q P |
| C20 | `FL.Aggregated.membership_perm` | C Q P |
| C20 | `FL.Aggregated.membership_order_partial` | C Q P |
| C20 | `FL.Aggregated.membership_order_violated` | C Q P |
| C20 | `FL.Aggregated.membership_addTerm` | C Q P |
| C20 | `FL.Aggregated.membership_addTerm_ge` | C Q P |
| C20 | `FL.Activated.membership_range` | C Q P |
| C21 | `FL.Aggregated.grouped_spec` | C Q P |
| C21 | `FL.Aggregated.grouped_idempotent` | C Q P |
| C21 | `FL.Aggregated.grouped_ok` | Q P |
| C21 | `FL.Aggregated.grouped_activationDegree` | C Q P |
| C21 | `FL.Aggregated.grouped_activationDegree_partial` | C Q P |
| C21 | `FL.Aggregated.grouped_activationDegree_violated` | C Q P |
| C21 | `FL.Aggregated.maximallyActivatedTerms_spec` | C Q P |
| C22 | `FL.Aggregated.removeTerm_remaining_partial` | C Q P |
| C22 | `FL.Aggregated.removeTerm_violated` | C Q P |
| C23 | `FL.Formula.parse_renders` | C Q P |
| C23 | `FL.Formula.minimal_renders` | C Q P |
| C23 | `FL.Formula.parse_minimal` | C Q P |
| C23 | `FL.Formula.parse_redundant` | C Q P |
| C23 | `FL.Formula.renders_unambiguous` | C Q P |
| C23 | `FL.Formula.shunt_correct` | C Q P |
| C23 | `FL.Formula.default_coherent` | C Q P |
| C24 | `FL.Node.evaluate_congr` | Q P |
| C24 | `FL.Node.evaluate_ok_iff` | Q P |
| C24 | `FL.Node.evaluate_error` | P |
| C24 | `FL.Formula.evaluate_renders` | C Q P |
| C24 | `FL.Formula.parse_sound_partial` | C Q P |
| C24 | `FL.Formula.parse_ok_iff` | C Q P |
| C24 | `FL.Formula.malformed_accepted_violated` | C Q P |
| C24 | `FL.Fun.membership_stateless` | Q P |
| C24 | `FL.Fun.load_ok` | Q P |
| C24 | `FL.Fun.load_failure_keeps_root` | Q P |
| C25 | `FL.Formula.toPostfix_faithful` | C Q P |
| C25 | `FL.Formula.toInfix_faithful_partial` | C Q P |
| C25 | `FL.Formula.toInfix_unfaithful_violated` | C Q P |
| C26 | `FL.Antecedent.load_ok_iff` | C Q P |
| C26 | `FL.Antecedent.load_infix_partial` | C Q P |
| C26 | `FL.Antecedent.load_tokens_partial` | C Q P |
| C26 | `FL.Antecedent.load_scrambled_violated` | C Q P |
| C26 | `FL.Antecedent.load_functionName_violated` | C Q P |
| C26 | `FL.Antecedent.default_usable` | C Q P |
| C26 | `FL.Antecedent.default_tidy` | C Q P |
| C27 | `FL.Expr.degree_iff` | C Q P |
| C27 | `FL.Expr.degree_missing` | C Q P |
| C27 | `FL.Expr.degree_range_partial` | C Q P |
| C27 | `FL.degree_unboundedSum_violated` | C Q P |
| C27 | `FL.applyHedges_iff` | C Q P |
| C28 | `FL.modifyLoop_exact` | C Q P |
| C28 | `FL.modify_partial` | C Q P |
| C28 | `FL.modify_total` | C Q P |
| C28 | `FL.modify_carry_violated` | C Q P |
| C29 | `FL.Rule.load_iff` | C Q P |
| C29 | `FL.Rule.load_outcome` | C Q P |
| C29 | `FL.Rule.load_wellFormed` | C Q P |
| C29 | `FL.Rule.load_text_only` | C Q P |
| C29 | `FL.Rule.uncomment_spec` | Q P |
| C29 | `FL.Consequent.load_ok_iff` | Q P |
| C29 | `FL.Antecedent.load_ok_iff` | C Q P |
| C29 | `FL.Rule.load_scrambled_violated` | C Q P |
| C30 | `FL.loadRules_eq` | Q P |
| C30 | `FL.loadRules_spec` | C Q P |
| C30 | `FL.loadRules_perm` | Q P |
| C31 | `FL.RuleBlock.general_spec` | C Q P |
| C31 | `FL.RuleBlock.activate_default` | C Q P |
| C32 | `FL.RuleBlock.first_spec` | C Q P |
| C32 | `FL.RuleBlock.last_spec` | C Q P |
| C32 | `FL.RuleBlock.first_partial` | C Q P |
| C32 | `FL.RuleBlock.last_partial` | C Q P |
| C32 | `FL.RuleBlock.first_disabled_violated` | C Q P |
| C32 | `FL.RuleBlock.last_disabled_violated` | C Q P |
| C33 | `FL.RuleBlock.highest_spec` | C Q P |
| C33 | `FL.RuleBlock.lowest_spec` | C Q P |
| C33 | `FL.RuleBlock.Ordered.result_partial` | C Q P |
| C33 | `FL.RuleBlock.stableHeap_lawful` | C Q P |
| C33 | `FL.RuleBlock.highest_disabled_violated` | C Q P |
| C33 | `FL.RuleBlock.lowest_disabled_violated` | C Q P |
| C34 | `FL.RuleBlock.proportional_spec` | C Q P |
| C34 | `FL.RuleBlock.proportional_partial` | C Q P |
| C34 | `FL.RuleBlock.proportional_negative_violated` | C Q P |
| C35 | `FL.RuleBlock.threshold_spec` | C Q P |
| C35 | `FL.Comparison.partition` | C Q P |
| C35 | `FL.Comparison.parse_operator` | — |
| C35 | `FL.Comparison.operator_parse` | P |
| C36 | `FL.Integral.defuzzify_inside` | C Q P |
| C36 | `FL.Integral.defuzzify_infinite` | C Q P |
| C36 | `FL.Integral.centroid_value` | C Q P |
| C36 | `FL.Integral.bisector_value` | C Q P |
| C37 | `FL.Integral.maxima_spec` | C Q P |
| C37 | `FL.Integral.maximum_order` | C Q P |
| C37 | `FL.Integral.defuzzify_scale` | C Q P |
| C38 | `FL.Weighted.weighted_value` | C Q P |
| C38 | `FL.Weighted.defuzzify_empty` | C Q P |
| C38 | `FL.Weighted.weighted_perm_partial` | C Q P |
| C38 | `FL.Weighted.weighted_order_partial` | C Q P |
| C38 | `FL.Weighted.weighted_perm_violated` | C Q P |
| C39 | `FL.Weighted.inferTypes_spec` | C Q P |
| C39 | `FL.Weighted.defuzzify_automatic` | C Q P |
| C39 | `FL.Weighted.defuzzify_empty` | C Q P |
| C39 | `FL.Weighted.tsukamoto_monotonic` | Q P |
| C40 | `FL.Variable.setValue_inRange` | C Q P |
| C40 | `FL.Variable.calls_inRange_partial` | C Q P |
| C40 | `FL.Variable.calls_inRange_violated` | C Q P |
| C41 | `FL.OutputVariable.defuzzify_spec` | C Q P |
| C41 | `FL.OutputVariable.defuzzify_partial` | C Q P |
| C41 | `FL.OutputVariable.defuzzify_previous_violated` | C Q P |
| C41 | `FL.OutputVariable.defuzzifyV6_spec` | C Q P |
| C42 | `FL.Engine.process_fresh` | C Q P |
| C42 | `FL.Engine.memoryless_partial` | C Q P |
| C42 | `FL.Engine.history_partial` | C Q P |
| C42 | `FL.Engine.twice_partial` | C Q P |
| C42 | `FL.MemoryDemo.memory_violated` | C Q P |
| C43 | `FL.Engine.process_variables` | C Q P |
| C43 | `FL.Engine.process_blocks` | C Q P |
| C43 | `FL.Engine.process_without_disabled_blocks` | C Q P |
| C43 | `FL.Proposition.degree_disabled` | C Q P |
| C43 | `FL.RuleBlock.general_without_disabled` | C Q P |
| C44 | `FL.Engine.clone_spec` | Q P |
| C44 | `FL.Engine.clone_partial` | C Q P |
| C44 | `FL.CloneDemo.clone_enabled_violated` | C Q P |
| C44 | `FL.CloneDemo.clone_weight_violated` | C Q P |
| C45 | `FL.Engine.Equipped.complete` | C Q P |
| C45 | `FL.Engine.ready_partial` | C Q P |
| C45 | `FL.Engine.ready_spaced_partial` | C Q P |
| C45 | `FL.Engine.textRequires_of_spaces` | Q P |
| C45 | `FL.ReadyDemo.ready_tab_violated` | C Q P |
| C45 | `FL.ReadyDemo.ready_parenthesis_violated` | C Q P |
| C46 | `FL.Slot.get_spec` | C Q P |
| C46 | `FL.Slot.remove_spec` | C Q P |
| C46 | `FL.Slot.at_spec_partial` | C Q P |
| C46 | `FL.Slot.only_list` | P |
| C46 | `FL.Slot.insert_violated` | P |
| C46 | `FL.slots_lawful` | — |
| C46 | `FL.Variable.termSlot_spec` | C Q P |
| C46 | `FL.Engine.setInputValue_spec` | C Q P |
| C47 | `FL.Variable.activations_spec` | C Q P |
| C47 | `FL.Variable.highestMembership_spec` | C Q P |
| C48 | `FL.Benchmark.numberOfErrors_eq` | C Q P |
| C48 | `FL.Benchmark.counts_spec` | P |
| C48 | `FL.Benchmark.allErrors_partial` | C Q P |
| C48 | `FL.Benchmark.numberOfErrors_sum_partial` | C Q P |
| C48 | `FL.Benchmark.numberOfErrors_sign` | C Q P |
| C48 | `FL.Benchmark.minus_one_violated` | Q P |
| C48 | `FL.Benchmark.accuracyErrors_eq` | C Q P |
| C48 | `FL.Benchmark.meanSquaredError_eq` | C Q P |
| C48 | `FL.Benchmark.deviations_ne` | C Q P |
| C48 | `FL.Benchmark.meanSquaredError_partial` | C Q P |
| C48 | `FL.Benchmark.mean_nan_violated` | C Q P |
| C49 | `FL.ConstructionFactory.calls_find` | C Q P |
| C49 | `FL.ConstructionFactory.history` | C Q P |
| C49 | `FL.ConstructionFactory.history_from` | C Q P |
| C49 | `FL.CloningFactory.run_step` | C Q P |
| C49 | `FL.CloningFactory.call_value` | C Q P |
| C49 | `FL.CloningFactory.interleave_spec` | C Q P |
| C49 | `FL.CloningFactory.copy_spec` | C Q P |
| C49 | `FL.CloningFactory.assignFrom_spec` | C Q P |
| C49 | `FL.CloningFactory.lookup_spec` | C Q P |
| C49 | `FL.CloningFactory.history` | C Q P |
| C49 | `FL.CloningFactory.register_leak` | — |
| C49 | `FL.CloningFactory.shared_object_violated` | — |
| C50 | `FL.Op.scale_fin` | C Q P |
| C50 | `FL.Op.scale_affine` | C Q P |
| C50 | `FL.Op.scale_inverse` | C Q P |
| C50 | `FL.Op.scale_compose` | C Q P |
| C50 | `FL.Op.scaleBounded_range` | C Q P |
| C50 | `FL.Op.midpoints_spec` | C Q P |
| C51 | `FL.Fll.fromString_toString` | C Q P |
| C51 | `FL.Fll.toString_reading` | C Q P |
| C51 | `FL.Fll.reading_ok_iff` | C Q P |
| C51 | `FL.Fll.loads_of_noFunction` | P |
| C51 | `FL.Fll.roundTrip_partial` | C Q P |
| C51 | `FL.FllExamples.text_engine` | C Q P |
| C51 | `FL.FllExamples.activation_violated` | C Q P |
| C51 | `FL.FllExamples.height_violated` | C Q P |
| C51 | `FL.FllExamples.blanks_violated` | C Q P |
| C51 | `FL.FllExamples.comment_violated` | C Q P |
| C51 | `FL.FllExamples.formula_violated` | C Q P |
| C51 | `FL.FllExamples.norm_violated` | C Q P |
| C51 | `FL.FllExamples.name_violated` | C Q P |
| C51 | `FL.FllExamples.description_violated` | C Q P |
| C52 | `FL.odometer_box` | C Q P |
| C52 | `FL.grid_length` | C Q P |
| C52 | `FL.fuel_suffices` | C Q P |
| C52 | `FL.FldExporter.writeGrid_partial` | C Q P |
| C52 | `FL.FldExporter.lines_partial` | C Q P |
| C52 | `FL.FldExporter.points_partial` | C Q P |
| C52 | `FL.FldExporter.write_spec` | C Q P |
| C52 | `FL.FldExporter.writeRow_spec` | C Q P |
| C52 | `FL.FldExporter.writeRow_empty` | C Q P |
| C52 | `FL.Benchmark.prepare_spec` | C Q P |
| C52 | `FL.gridPoints_length` | C Q P |
| C52 | `FL.sample_partial` | C Q P |
| C52 | `FL.gridPoints_within_partial` | C Q P |
| C52 | `FL.gridPoints_corner_partial` | C Q P |
| C52 | `FL.gridPoints_nodup_partial` | C Q P |
| C52 | `FL.resolution_all_partial` | C Q P |
| C52 | `FL.resolution_no_inputs_violated` | C Q P |
| C52 | `FL.resolution_each` | C Q P |
| C52 | `FL.GridDemo.inactive_violated` | C Q P |
| C52 | `FL.GridDemo.negative_resolution_violated` | C Q P |
| C52 | `FL.GridDemo.no_inputs_violated` | C Q P |
| C53 | `FL.Term.configure_shape` | C Q P |
| C53 | `FL.Term.configure_discrete` | Q P |
| C53 | `FL.Term.configure_constant` | Q P |
| C53 | `FL.Term.configure_linear` | Q P |
| C53 | `FL.Term.configure_function` | Q P |
| C53 | `FL.Term.configure_tooFew` | Q P |
| C53 | `FL.Term.configure_blank` | C Q P |
| C53 | `FL.Term.configure_empty_partial` | Q P |
| C53 | `FL.Term.configure_empty_violated` | Q P |
| C53 | `FL.Term.configure_height_violated` | Q P |
| C53 | `FL.Term.configure_constant_violated` | C Q P |
| C53 | `FL.Term.configure_halfway` | Q P |
| C53 | `FL.Term.configure_linear_wrong` | Q P |
| C53 | `FL.Term.configure_discrete_wrong` | Q P |
| C53 | `FL.Term.configure_constant_words` | Q P |
| C53 | `FL.reread_close` | C Q P |
| C53 | `FL.reread_special` | C Q P |
| C54 | `FL.Engine.restart_spec` | Q P |
| C54 | `FL.Engine.restart_values` | Q P |
| C54 | `FL.Engine.restart_idempotent` | Q P |
| C55 | `FL.Op.mean_fin` | C Q P |
| C55 | `FL.Op.mean_between` | C Q P |
| C55 | `FL.Op.variance_fin` | C Q P |
| C55 | `FL.Op.variance_nonneg` | C Q P |
| C55 | `FL.Op.variance_translate` | C Q P |
| C55 | `FL.Op.standardDeviation_sqrt` | C Q P |
| C56 | `FL.Op.replaceAll_eq` | Q P |
| C56 | `FL.Op.replaceFirst_drops_rest_violated` | P |
| C56 | `FL.Op.findReplace_diverges` | P |
| C57 | `FL.Benchmark.runRows_rows` | C Q P |
| C57 | `FL.Benchmark.run_partial` | C Q P |
| C57 | `FL.Benchmark.run_complete_partial` | C Q P |
| C57 | `FL.Benchmark.run_perm_partial` | C Q P |
| C57 | `FL.Benchmark.run_again_partial` | C Q P |
| C57 | `FL.Benchmark.run_no_engine` | C Q P |
| C57 | `FL.Benchmark.run_short_partial` | C Q P |
| C57 | `FL.RunDemo.run_memory_violated` | C Q P |
| C58 | `FL.FldExporter.benchmark_partial` | C Q P |
| C58 | `FL.FldExporter.benchmark_errors_partial` | C Q P |
| C58 | `FL.FldExporter.benchmark_mean_partial` | C Q P |
| C58 | `FL.RunDemo.own_data_violated` | C Q P |
| C59 | `FL.Benchmark.readLines_data` | Q P |
| C59 | `FL.Benchmark.readLines_spec` | C Q P |
| C59 | `FL.Benchmark.prepareText_spec` | P |
| C59 | `FL.FldExporter.prepareText_partial` | C Q P |
| C59 | `FL.FldExporter.writeLines_data` | C Q P |
| C59 | `FL.FldExporter.writeReader_spec` | C Q P |
| C59 | `FL.Term.toScalars_error` | Q P |
| C59 | `FL.Term.toScalars_ok` | Q P |
| C59 | `FL.Op.words_join_blank` | P |
| C59 | `FL.DataDemo.csv_violated` | C Q P |
| C59 | `FL.DataDemo.header_violated` | C Q P |
| C59 | `FL.DataDemo.comment_first_violated` | C Q P |
| C60 | `FL.linearMembership_eq` | Q P |
| C60 | `FL.linearMembership_noEngine` | Q P |
| C60 | `FL.membership_argument` | C Q P |
| C60 | `FL.linearMembership_fin` | C Q P |
| C60 | `FL.linearMembership_affine` | C Q P |
| C60 | `FL.linearMembership_linear` | C Q P |
| C61 | `FL.Engine.Sound.process` | C Q P |
| C61 | `FL.Engine.Sound.history` | C Q P |
| C61 | `FL.Engine.Sound.answer` | C Q P |
| C61 | `FL.Engine.sound_config` | C Q P |
| C61 | `FL.Engine.sound_of_loaded` | C Q P |
| C61 | `FL.Term.evaluates_iff` | C Q P |
| C61 | `FL.Fun.load_evaluates` | C Q P |
| C61 | `FL.Discrete.increasing_evaluates` | C Q P |
| C61 | `FL.Benchmark.rows_sound` | C Q P |
| C61 | `FL.SoundDemo.demo_sound` | C Q P |
| C61 | `FL.SoundDemo.demo_mixed_violated` | C Q P |
| C61 | `FL.SoundDemo.demo_linear_violated` | C Q P |
| C62 | `FL.Engine.type_spec` | C Q P |
| C62 | `FL.Engine.type_config` | Q P |
| C62 | `FL.Engine.type_process` | C Q P |
| C62 | `FL.Engine.type_perm` | Q P |
| C62 | `FL.Engine.type_perm_outputs` | Q P |
| C62 | `FL.Engine.type_serves` | C Q P |
| C62 | `FL.ConfigureDemo.inverse_raises_violated` | C Q P |
| C62 | `FL.ConfigureDemo.hybrid_violated` | C Q P |
| C63 | `FL.Variable.sort_perm` | C Q P |
| C63 | `FL.Variable.sort_error` | C Q P |
| C63 | `FL.Variable.centroid_spec` | C Q P |
| C63 | `FL.Variable.centroid_error` | C Q P |
| C63 | `FL.Variable.sort_sorted_partial` | C Q P |
| C63 | `FL.Variable.sort_unique_partial` | C Q P |
| C63 | `FL.ConfigureDemo.sort_nan_violated` | C Q P |
| C64 | `FL.Engine.configure_spec` | Q P |
| C64 | `FL.Engine.configure_twice` | P |
| C64 | `FL.Engine.configure_equipped` | Q P |
| C64 | `FL.Engine.configure_complete` | C Q P |
| C64 | `FL.Engine.configure_ready` | Q P |
| C64 | `FL.Engine.configure_type` | C Q P |
| C64 | `FL.Engine.construct_iff` | Q P |
| C64 | `FL.Engine.construct_error` | Q P |
| C64 | `FL.Engine.configureNames_iff` | Q P |
| C64 | `FL.Engine.configureNames_raises` | Q P |
| C65 | `FL.Rounded.compare_trichotomy` | C Q P |
| C65 | `FL.Rounded.compare_laws` | C Q P |
| C66 | `FL.Rounded.tnorm_degree` | C Q P |
| C66 | `FL.Rounded.snorm_degree` | C Q P |
| C66 | `FL.Rounded.norm_monotone` | C Q P |
| C66 | `FL.Rounded.hedge_degree` | C Q P |
| C66 | `FL.Rounded.antecedent_degree` | C Q P |
| C66 | `FL.Rounded.fuzzy_degree` | C Q P |
| C66 | `FL.Rounded.step_degree` | C Q P |
| C66 | `FL.Rounded.line_shapes_degree_partial` | C Q P |
| C66 | `FL.Rounded.hamacherSum_violated` | C Q P |
| C66 | `FL.Rounded.not_hamacherSum_violated` | C Q P |
| C66 | `FL.Rounded.norm_bounds_violated` | C Q P |
| C66 | `FL.Rounded.norm_monotone_violated` | C Q P |
| C66 | `FL.Binary64.tight` | C Q P |
| C66 | `FL.Binary64.root` | C Q P |
| C67 | `FL.Strict.fromString_iff` | C Q P |
| C67 | `FL.Strict.fromString_rows` | C Q P |
| C67 | `FL.Strict.process_iff` | Q P |
| C67 | `FL.Strict.input_iff` | Q P |
| C67 | `FL.Strict.output_iff` | Q P |
| C67 | `FL.Strict.block_iff` | Q P |
| C67 | `FL.Strict.flag_iff` | P |
| C67 | `FL.Strict.tnorm_iff` | P |
| C67 | `FL.Strict.snorm_iff` | P |
| C67 | `FL.Strict.range_iff` | P |
| C67 | `FL.Strict.term_iff` | Q P |
| C67 | `FL.Strict.defuzzifier_iff` | P |
| C67 | `FL.Strict.activation_iff` | Q P |
| C67 | `FL.Strict.comparison_iff` | P |
| C67 | `FL.Strict.line_cases` | C Q P |
| C67 | `FL.Strict.silent_line` | Q P |
| C67 | `FL.Strict.says_line` | C Q P |
| C67 | `FL.Strict.speechless_line` | Q P |
| C67 | `FL.Strict.flag_error` | — |
| C67 | `FL.Strict.norm_error` | P |
| C67 | `FL.Strict.key_error` | Q P |
| C68 | `FL.Fcl.fromString_toString` | C Q P |
| C68 | `FL.Fcl.run_input` | C Q P |
| C68 | `FL.Fcl.run_output` | C Q P |
| C68 | `FL.Fcl.run_ruleBlock` | Q P |
| C68 | `FL.Fcl.readTerm_shape` | C Q P |
| C68 | `FL.Fcl.readTerm_discrete` | Q P |
| C68 | `FL.Fcl.readTerm_constant` | Q P |
| C68 | `FL.Fcl.readTerm_linear` | Q P |
| C68 | `FL.Fcl.readTerm_function` | Q P |
| C68 | `FL.Fcl.reading_ok_iff` | C Q P |
| C68 | `FL.Fcl.toString_reading` | C Q P |
| C68 | `FL.Fcl.roundTrip_partial` | C Q P |
| C68 | `FL.FclExamples.text_engine` | C Q P |
| C68 | `FL.FclExamples.enabled_violated` | C Q P |
| C68 | `FL.FclExamples.resolution_violated` | C Q P |
| C68 | `FL.FclExamples.activation_violated` | C Q P |
| C68 | `FL.FclExamples.height_violated` | C Q P |
| C68 | `FL.FclExamples.formula_violated` | C Q P |
| C68 | `FL.FclExamples.discrete_violated` | C Q P |
| C68 | `FL.FclExamples.duplicate_violated` | C Q P |
| C68 | `FL.FclExamples.name_violated` | C Q P |
| C68 | `FL.FclExamples.blockName_violated` | C Q P |
| C68 | `FL.FclExamples.norm_violated` | C Q P |
| C68 | `FL.FclExamples.default_violated` | C Q P |
| C68 | `FL.FclExamples.ruleText_violated` | P |
| C69 | `FL.FclStrict.fromString_iff` | C Q P |
| C69 | `FL.FclStrict.builds_iff` | C Q P |
| C69 | `FL.FclStrict.input_iff` | C Q P |
| C69 | `FL.FclStrict.output_iff` | C Q P |
| C69 | `FL.FclStrict.block_iff` | C Q P |
| C69 | `FL.FclStrict.tnorm_iff` | P |
| C69 | `FL.FclStrict.snorm_iff` | P |
| C69 | `FL.FclStrict.defuzzifier_iff` | P |
| C69 | `FL.FclStrict.enabled_iff` | P |
| C69 | `FL.FclStrict.range_iff` | P |
| C69 | `FL.FclStrict.default_iff` | P |
| C69 | `FL.FclStrict.default_ub` | P |
| C69 | `FL.FclStrict.locks_iff` | C Q P |
| C69 | `FL.FclStrict.term_iff` | C Q P |
| C69 | `FL.FclStrict.clean_eq` | Q P |
| C69 | `FL.FclStrict.layout_tail` | Q P |
| C69 | `FL.FclStrict.unknown_word` | Q P |
| C69 | `FL.FclStrictExamples.type_unchecked` | C Q P |
| C69 | `FL.FclStrictExamples.lock_dropped` | C Q P |
| C69 | `FL.FclStrictExamples.undefined_reached` | C Q P |
| C69 | `FL.FclStrictExamples.title_inside` | C Q P |
| C70 | `FL.Fis.createInstance_read` | C Q P |
| C70 | `FL.Fis.parseTerm_line` | C Q P |
| C70 | `FL.Fis.importInput_body` | C Q P |
| C70 | `FL.Fis.importOutput_body` | C Q P |
| C70 | `FL.Fis.rule_read` | C Q P |
| C70 | `FL.Fis.fromString_toString` | C Q P |
| C70 | `FL.Fis.rule_load` | C Q P |
| C70 | `FL.Fis.rule_same` | C Q P |
| C70 | `FL.Fis.reading_ok_iff` | C Q P |
| C70 | `FL.Fis.roundTrip_partial` | C Q P |
| C70 | `FL.FisExamples.text_engine` | C Q P |
| C70 | `FL.FisExamples.flags_violated` | C Q P |
| C70 | `FL.FisExamples.activation_violated` | C Q P |
| C70 | `FL.FisExamples.operators_violated` | C Q P |
| C70 | `FL.FisExamples.outputs_violated` | C Q P |
| C70 | `FL.FisExamples.blocks_violated` | C Q P |
| C70 | `FL.FisExamples.hedges_violated` | C Q P |
| C70 | `FL.FisExamples.fractions_violated` | C Q P |
| C70 | `FL.FisExamples.combinations_violated` | C Q P |
| C70 | `FL.FisExamples.propositions_violated` | C Q P |
| C70 | `FL.FisExamples.antecedent_violated` | C Q P |
| C70 | `FL.FisExamples.connectors_violated` | C Q P |
| C70 | `FL.FisExamples.weight_violated` | C Q P |
| C70 | `FL.FisExamples.inputs_violated` | C Q P |
| C70 | `FL.FisExamples.formula_violated` | C Q P |
| C70 | `FL.FisExamples.blanks_violated` | C Q P |
| C70 | `FL.FisExamples.name_violated` | C Q P |
| C70 | `FL.FisExamples.function_violated` | C Q P |
| C70 | `FL.FisExamples.code_ub` | C Q P |
| C70 | `FL.FisExamples.class_ub` | C Q P |
| C70 | `FL.FisExamples.outOfRange_witness` | C Q P |
| C71 | `FL.FisStrict.fromString_iff` | C Q P |
| C71 | `FL.FisStrict.sections_iff` | C Q P |
| C71 | `FL.FisStrict.section_iff` | C Q P |
| C71 | `FL.FisStrict.system_iff` | P |
| C71 | `FL.FisStrict.input_iff` | C Q P |
| C71 | `FL.FisStrict.output_iff` | C Q P |
| C71 | `FL.FisStrict.range_iff` | Q P |
| C71 | `FL.FisStrict.term_iff` | C Q P |
| C71 | `FL.FisStrict.class_iff` | P |
| C71 | `FL.FisStrict.ordered_iff` | C Q P |
| C71 | `FL.FisStrict.rule_iff` | C Q P |
| C71 | `FL.FisStrict.says_iff` | C Q P |
| C71 | `FL.FisStrict.says_ub` | C Q P |
| C71 | `FL.FisStrict.codes_iff` | C Q P |
| C71 | `FL.FisStrict.connects_iff` | C Q P |
| C71 | `FL.FisStrict.tnorm_iff` | P |
| C71 | `FL.FisStrict.snorm_iff` | P |
| C71 | `FL.FisStrict.defuzzifier_iff` | P |
| C72 | `FL.Rounded.sample_range` | C Q P |
| C72 | `FL.Rounded.sample_inner` | C Q P |
| C72 | `FL.Rounded.extreme_range` | C Q P |
| C72 | `FL.Rounded.mean_range_partial` | C Q P |
| C72 | `FL.Rounded.centroid_range_partial` | C Q P |
| C72 | `FL.Rounded.weighted_near` | C Q P |
| C72 | `FL.Rounded.double_sampled` | C Q P |
| C72 | `FL.Rounded.double_inside_partial` | C Q P |
| C72 | `FL.Rounded.sample_violated` | C Q P |
| C72 | `FL.Rounded.mean_range_violated` | C Q P |
| C72 | `FL.Rounded.centroid_violated` | C Q P |
| C72 | `FL.Rounded.weighted_violated` | C Q P |
| C72 | `FL.Binary64.fine` | C Q P |
| C72 | `FL.Flt.mean_near` | C Q P |
| C72 | `FL.Flt.ratio_near` | C Q P |
| C73 | `FL.Double.reads` | C Q P |
| C73 | `FL.Double.reads_exact` | C Q P |
| C73 | `FL.Double.reads_large` | C Q P |
| C73 | `FL.Double.read_nearest` | C Q P |
| C73 | `FL.Double.reread_steady` | C Q P |
| C73 | `FL.Double.isEq_one` | C Q P |
| C73 | `FL.Double.fll_partial` | C Q P |
| C73 | `FL.Double.fcl_partial` | C Q P |
| C73 | `FL.Double.fis_partial` | C Q P |
| C73 | `FL.Double.small_violated` | C Q P |
| C73 | `FL.Double.triangle_violated` | C Q P |
| C73 | `FL.Double.code_violated` | C Q P |
| C73 | `FL.Double.std_whole` | C Q P |
| C73 | `FL.Binary64.nearest` | C Q P |
| C73 | `FL.Fis.codeText` | C Q P |
| C73 | `FL.Flt.lawfulText` | C Q P |
| C73 | `FL.Flt.plainText` | C Q P |
| C73 | `FL.Flt.lawfulInt` | C Q P |
| C74 | `FL.Cpp.execute_toString` | C Q P |
| C74 | `FL.Cpp.reading_ok_iff` | C Q P |
| C74 | `FL.Cpp.toString_reading` | Q P |
| C74 | `FL.Cpp.roundTrip_partial` | C Q P |
| C74 | `FL.Cpp.localNames_numbered` | C Q P |
| C74 | `FL.Cpp.isIdent_validName` | C Q P |
| C74 | `FL.Double.cpp_partial` | C Q P |
| C74 | `FL.CppExamples.good_engine` | C Q P |
| C74 | `FL.CppExamples.weighted_violated` | C Q P |
| C74 | `FL.CppExamples.infinite_violated` | C Q P |
| C74 | `FL.CppExamples.nan_violated` | C Q P |
| C74 | `FL.CppExamples.quote_violated` | C Q P |
| C74 | `FL.CppExamples.newline_violated` | C Q P |
| C74 | `FL.CppExamples.backslash_violated` | C Q P |
| C74 | `FL.CppExamples.identifier_violated` | C Q P |
| C74 | `FL.CppExamples.duplicate_violated` | C Q P |
| C74 | `FL.CppExamples.empty_violated` | C Q P |
| C74 | `FL.CppExamples.linear_violated` | C Q P |
| C74 | `FL.CppExamples.linear_input_violated` | C Q P |
| C74 | `FL.CppExamples.height_violated` | C Q P |
| C74 | `FL.CppExamples.formula_violated` | C Q P |
| C74 | `FL.CppExamples.rule_violated` | C Q P |
| C74 | `FL.CppExamples.norm_violated` | C Q P |
| C74 | `FL.CppExamples.enabled_violated` | C Q P |
| C75 | `FL.Console.reaches_text` | C Q P |
| C75 | `FL.Console.reaches_word` | C Q P |
| C75 | `FL.Console.reaches_some` | C Q P |
| C75 | `FL.Console.reaches_row` | C Q P |
| C75 | `FL.Console.reaches_process` | C Q P |
| C75 | `FL.Console.reaches_discard` | C Q P |
| C75 | `FL.Console.reaches_restart` | C Q P |
| C75 | `FL.Console.reaches_help` | C Q P |
| C75 | `FL.Console.reaches_ignored` | C Q P |
| C75 | `FL.Console.interactive_reaches` | C Q P |
| C75 | `FL.Console.loop_config` | C Q P |
| C75 | `FL.Console.interactive_safe` | C Q P |
| C75 | `FL.Console.interactive_sound` | C Q P |
| C75 | `FL.Console.reply_answer` | C Q P |
| C75 | `FL.Console.history_partial` | C Q P |
| C75 | `FL.Console.session_partial` | C Q P |
| C75 | `FL.Console.Demo.memory_violated` | C Q P |
| C75 | `FL.Console.Demo.lock_violated` | C Q P |
| C75 | `FL.Console.Demo.restart_violated` | C Q P |
| C75 | `FL.Console.Demo.unfinished_violated` | C Q P |
| C75 | `FL.Console.Demo.quit_violated` | C Q P |
| C75 | `FL.Console.Demo.no_inputs_violated` | C Q P |
| C75 | `FL.Console.Demo.letters_violated` | C Q P |
| C76 | `FL.Console.Demo.hybrid_file` | C Q P |
| C76 | `FL.Console.parse_known` | C Q P |
| C76 | `FL.Console.parse_files` | C Q P |
| C76 | `FL.Console.parse_odd` | Q P |
| C76 | `FL.Console.parse_unknown` | C Q P |
| C76 | `FL.Console.usage_ok` | — |
| C76 | `FL.Console.extension_stem` | Q P |
| C76 | `FL.Console.extension_none` | P |
| C76 | `FL.Console.importText_endLines` | C Q P |
| C76 | `FL.Console.main_known` | C Q P |
| C76 | `FL.Console.main_order` | C Q P |
| C76 | `FL.Console.main_unknown` | C Q P |
| C76 | `FL.Console.main_few` | C Q P |
| C76 | `FL.Console.main_odd` | C Q P |
| C76 | `FL.Console.writes_text` | C Q P |
| C76 | `FL.Console.prints_text` | C Q P |
| C76 | `FL.Console.example_iff` | P |
| C76 | `FL.Console.writes_example` | C Q P |
| C76 | `FL.Console.process_decimals` | C Q P |
| C76 | `FL.Console.two_files` | C Q P |
| C76 | `FL.Console.converts` | C Q P |
| C76 | `FL.Console.copies_fll_partial` | C Q P |
| C76 | `FL.Console.copies_fcl_partial` | C Q P |
| C76 | `FL.Console.converts_cpp_partial` | C Q P |
| C76 | `FL.Console.converts_java_partial` | C Q P |
| C76 | `FL.Console.writes_data` | C Q P |
| C76 | `FL.Console.writes_values_partial` | C Q P |
| C76 | `FL.Console.writes_interactive` | C Q P |
| C76 | `FL.Console.writes_session_partial` | C Q P |
| C76 | `FL.Console.touched` | C Q P |
| C76 | `FL.Console.import_violated` | C Q P |
| C76 | `FL.Console.format_violated` | C Q P |
| C76 | `FL.Console.data_violated` | C Q P |
| C76 | `FL.Console.Demo.accepted` | C Q P |
| C76 | `FL.Console.Demo.violated` | C Q P |
| C77 | `FL.JavaExamples.keywords_listed` | C Q P |
| C77 | `FL.Java.execute_toString` | C Q P |
| C77 | `FL.Java.execute_cpp` | C Q P |
| C77 | `FL.Java.roundTrip_partial` | C Q P |
| C77 | `FL.Java.Good.of_cpp` | Q P |
| C77 | `FL.Double.java_partial` | C Q P |
| C77 | `FL.JavaExamples.text_engine` | C Q P |
| C77 | `FL.JavaExamples.good_engine` | C Q P |
| C77 | `FL.JavaExamples.infinite_violated` | C Q P |
| C77 | `FL.JavaExamples.nan_violated` | C Q P |
| C77 | `FL.JavaExamples.quote_violated` | C Q P |
| C77 | `FL.JavaExamples.identifier_violated` | C Q P |
| C77 | `FL.JavaExamples.class_violated` | C Q P |
| C77 | `FL.JavaExamples.height_violated` | C Q P |
| C78 | `FL.RScriptDemo.reserved_listed` | C Q P |
| C78 | `FL.RScriptExporter.script_runs` | C Q P |
| C78 | `FL.RScriptExporter.exporting_runs_partial` | C Q P |
| C78 | `FL.RScriptExporter.exportingReader_runs_partial` | C Q P |
| C78 | `FL.RScriptExporter.importing_runs_partial` | C Q P |
| C78 | `FL.RScriptExporter.toString_runs_partial` | C Q P |
| C78 | `FL.RScriptExporter.rows_partial` | C Q P |
| C78 | `FL.RScriptExporter.toString_empty` | C Q P |
| C78 | `FL.R.readDelim_text` | C Q P |
| C78 | `FL.RScriptDemo.texts_violated` | C Q P |
| C78 | `FL.RScriptDemo.names_violated` | C Q P |
| C78 | `FL.RScriptDemo.const_violated` | C Q P |
| C79 | `FL.TimedBenchmark.unit_named` | C Q P |
| C79 | `FL.ResultsDemo.cell_text` | C Q P |
| C79 | `FL.TimedBenchmark.results_names` | C Q P |
| C79 | `FL.TimedBenchmark.header_spec` | C Q P |
| C79 | `FL.TimedBenchmark.results_header` | C Q P |
| C79 | `FL.TimedBenchmark.expectedNames_nodup` | C Q P |
| C79 | `FL.TimedBenchmark.format_horizontal` | Q P |
| C79 | `FL.TimedBenchmark.format_vertical` | Q P |
| C79 | `FL.TimedBenchmark.run_partial` | C Q P |
| C79 | `FL.TimedBenchmark.reset_spec` | P |
| C79 | `FL.TimedBenchmark.engine_results` | C Q P |
| C79 | `FL.TimedBenchmark.convert_spec` | C Q P |
| C79 | `FL.TimedBenchmark.convert_trans` | C Q P |
| C79 | `FL.TimedBenchmark.time_results` | C Q P |
| C79 | `FL.TimedBenchmark.single_times` | C Q P |
| C79 | `FL.TimedBenchmark.error_results_partial` | C Q P |
| C79 | `FL.TimedBenchmark.nrmse_violated` | C Q P |
| C79 | `FL.ResultsDemo.times_violated` | C Q P |
| C79 | `FL.ResultsDemo.mean_violated` | C Q P |
| C79 | `FL.ResultsDemo.small_violated` | C Q P |
| C79 | `FL.ResultsDemo.columns_violated` | C Q P |
| C80 | `FL.Console.examples_listed` | C Q P |
| C80 | `FL.Console.benchmark_partial` | C Q P |
| C80 | `FL.Console.benchmark_file_partial` | C Q P |
| C80 | `FL.Console.benchmarks_partial` | C Q P |
| C80 | `FL.Console.benchmarks_file_partial` | C Q P |
| C80 | `FL.Console.benchmarks_stop` | C Q P |
| C80 | `FL.Console.benchmark_refused` | C Q P |
| C80 | `FL.Console.Measured.values` | C Q P |
| C80 | `FL.Console.program_options` | C Q P |
| C80 | `FL.Console.export_examples_partial` | C Q P |
| C80 | `FL.Console.export_frame` | C Q P |
| C80 | `FL.Console.examples_named` | P |
| C80 | `FL.Console.negative_violated` | C Q P |
| C80 | `FL.Console.java_violated` | C Q P |
| C80 | `FL.Console.CommandsDemo.lists_violated` | C Q P |
| C80 | `FL.Console.CommandsDemo.columns_violated` | C Q P |
| C80 | `FL.Console.CommandsDemo.emptied_violated` | C Q P |
| C80 | `FL.Console.CommandsDemo.missing_violated` | C Q P |
| C80 | `FL.Console.CommandsDemo.rounded_violated` | C Q P |
| C81 | `FL.Proposition.toString_words` | P |
| C81 | `FL.Antecedent.postfix_faithful_partial` | C Q P |
| C81 | `FL.Antecedent.prefix_faithful_partial` | C Q P |
| C81 | `FL.Antecedent.infix_reload_partial` | C Q P |
| C81 | `FL.Antecedent.infix_faithful_iff` | C Q P |
| C81 | `FL.Antecedent.infix_degree_partial` | C Q P |
| C81 | `FL.Antecedent.infix_degree_builtin_partial` | C Q P |
| C81 | `FL.Antecedent.load_over` | C Q P |
| C81 | `FL.Antecedent.text_again_partial` | C Q P |
| C81 | `FL.Antecedent.unloaded_refused` | P |
| C81 | `FL.Consequent.toString_faithful_partial` | C Q P |
| C81 | `FL.parentheses_violated` | C Q P |
| C81 | `FL.degree_violated` | C Q P |
| C81 | `FL.notations_violated` | C Q P |
| C82 | `FL.Aggregated.fuzzyValue_reads_partial` | Q P |
| C82 | `FL.Variable.fuzzify_partial` | C Q P |
| C82 | `FL.Variable.fuzzyInputValue_partial` | C Q P |
| C82 | `FL.OutputVariable.fuzzyOutputValue_partial` | C Q P |
| C82 | `FL.OutputVariable.fuzzyOutputValue_degree_partial` | C Q P |
| C82 | `FL.magnitudes_rat` | C Q P |
| C82 | `FL.magnitudes_double` | C Q P |
| C82 | `FL.FuzzyValue.fuzzify_blanks_violated` | C Q P |
| C82 | `FL.FuzzyValue.fuzzyOutputValue_names_violated` | C Q P |
| C82 | `FL.FuzzyValue.fuzzyOutputValue_degree_violated` | C Q P |
| C82 | `FL.FuzzyValue.fuzzify_decimals_violated` | C Q P |
| C83 | `FL.Rounded.smooth_degree` | C Q P |
| C83 | `FL.Rounded.smooth_number_partial` | C Q P |
| C83 | `FL.Rounded.curve_degree_partial` | C Q P |
| C83 | `FL.Rounded.concave_degree_partial` | C Q P |
| C83 | `FL.Rounded.ramp_monotone` | C Q P |
| C83 | `FL.Rounded.double` | C Q P |
| C83 | `FL.Rounded.easy_elementary` | C Q P |
| C83 | `FL.Rounded.easy_defined` | C Q P |
| C83 | `FL.Rounded.easy_squares` | C Q P |
| C83 | `FL.Rounded.curve_violated` | C Q P |
| C83 | `FL.Rounded.overflow_violated` | C Q P |
| C83 | `FL.Rounded.concave_violated` | C Q P |
| C83 | `FL.Rounded.number_violated` | C Q P |
| C83 | `FL.Rounded.discrete_violated` | C Q P |
| C84 | `FL.Own.delete_defined` | C Q P |
| C84 | `FL.Own.delete_exact` | C Q P |
| C84 | `FL.Own.delete_one_owner` | C Q P |
| C84 | `FL.Own.delete_root` | C Q P |
| C84 | `FL.Own.delete_all` | C Q P |
| C84 | `FL.Own.clean_iff_delete` | C Q P |
| C84 | `FL.Own.closed_survives` | C Q P |
| C84 | `FL.Own.variable_copy` | C Q P |
| C84 | `FL.Own.outputVariable_copy` | C Q P |
| C84 | `FL.Own.rule_copy` | C Q P |
| C84 | `FL.Own.ruleBlock_copy` | C Q P |
| C84 | `FL.Own.engine_copy_partial` | C Q P |
| C84 | `FL.Own.variable_assign` | C Q P |
| C84 | `FL.Own.outputVariable_assign` | C Q P |
| C84 | `FL.Own.rule_assign` | C Q P |
| C84 | `FL.Own.ruleBlock_assign` | C Q P |
| C84 | `FL.Own.engine_assign_partial` | C Q P |
| C84 | `FL.Own.assign_self` | P |
| C84 | `FL.Own.antecedent_load_exact` | C Q P |
| C84 | `FL.Own.consequent_load` | C Q P |
| C84 | `FL.Own.rule_load_partial` | C Q P |
| C84 | `FL.Own.rule_unload` | C Q P |
| C84 | `FL.Own.ruleBlock_loadRules_partial` | C Q P |
| C84 | `FL.Own.add_owner` | C Q P |
| C84 | `FL.Own.insert_owner` | C Q P |
| C84 | `FL.Own.insert_undefined` | Q P |
| C84 | `FL.Own.replace_owner` | C Q P |
| C84 | `FL.Own.remove_owner` | C Q P |
| C84 | `FL.Own.out_of_range` | P |
| C84 | `FL.Own.reset_owner` | C Q P |
| C84 | `FL.Own.configure_owner` | C Q P |
| C84 | `FL.Own.conclusions_refer` | C Q P |
| C84 | `FL.Own.Demo.copy_leak_violated` | C Q P |
| C84 | `FL.Own.Demo.add_twice_violated` | C Q P |
| C84 | `FL.Own.Demo.configure_twice_violated` | C Q P |
| C84 | `FL.Own.Demo.reset_same_violated` | C Q P |
| C84 | `FL.Own.Demo.implication_dangles_violated` | C Q P |
| C84 | `FL.Own.Demo.copy_dangles_violated` | C Q P |
| C85 | `FL.Own.antecedent_load_value` | C Q P |
| C85 | `FL.Own.consequent_load_value` | C Q P |
| C85 | `FL.Own.rule_load_value` | C Q P |
| C85 | `FL.Own.ruleBlock_loadRules_value` | C Q P |
| C85 | `FL.Own.rule_value_unique` | C Q P |
| C85 | `FL.Own.engine_copy_rules` | C Q P |
| C85 | `FL.Own.engine_assign_rules` | C Q P |
| C85 | `FL.Own.engine_copy_same` | C Q P |
| C86 | `FL.Rounded.antecedent_near_partial` | C Q P |
| C86 | `FL.Rounded.rule_near_partial` | C Q P |
| C86 | `FL.Rounded.rule_double_partial` | C Q P |
| C86 | `FL.Rounded.tnorm_near` | C Q P |
| C86 | `FL.Rounded.snorm_near` | C Q P |
| C86 | `FL.Rounded.hedge_near` | C Q P |
| C86 | `FL.Rounded.ramp_near` | C Q P |
| C86 | `FL.Rounded.trapezoid_near_partial` | C Q P |
| C86 | `FL.Rounded.average_stable` | C Q P |
| C86 | `FL.Rounded.weighted_sound` | C Q P |
| C86 | `FL.Rounded.fuzzy_near_partial` | C Q P |
| C86 | `FL.Rounded.centroid_sound_partial` | C Q P |
| C86 | `FL.Rounded.accurate` | C Q P |
| C86 | `FL.Rounded.smooth_violated` | C Q P |
| C87 | `FL.Rounded.sugeno_near_partial` | C Q P |
| C87 | `FL.Rounded.sugeno_process_partial` | C Q P |
| C87 | `FL.Rounded.sugeno_double_partial` | C Q P |
| C87 | `FL.RuleBlock.general_single` | C Q P |
| C87 | `FL.Rounded.sugeno_violated` | C Q P |
| C88 | `FL.Rounded.output_near_partial` | C Q P |
| C88 | `FL.Rounded.mamdani_near_partial` | C Q P |
| C88 | `FL.Rounded.mamdani_process_partial` | C Q P |
| C88 | `FL.Rounded.mamdani_double_partial` | C Q P |
| C88 | `FL.Rounded.process_single` | C Q P |
| C88 | `FL.Rounded.mamdani_violated` | C Q P |
| C89 | `FL.Own.Function.parse_clean_partial` | C Q P |
| C89 | `FL.Own.Function.parse_same` | C Q P |
| C89 | `FL.Own.Function.tree_unique` | — |
| C89 | `FL.Own.Function.tree_size` | Q P |
| C89 | `FL.Own.Function.function_unload` | C Q P |
| C89 | `FL.Own.Function.function_load_partial` | C Q P |
| C89 | `FL.Own.Function.function_copy` | C Q P |
| C89 | `FL.Own.Function.function_assign` | C Q P |
| C89 | `FL.Own.Function.function_assign_self` | P |
| C89 | `FL.Own.Function.visit_defined` | Q P |
| C89 | `FL.Own.Function.load_dangling` | C Q P |
| C89 | `FL.Own.Function.leak_violated` | C Q P |
| C89 | `FL.Own.Function.dangling_violated` | C Q P |
| C89 | `FL.Own.Function.nullary_violated` | P |
| C90 | `FL.Engine.status_spec` | C Q P |
| C90 | `FL.Engine.status_empty` | C Q P |
| C90 | `FL.Engine.status_ready` | C Q P |
| C90 | `FL.Engine.status_configure` | C Q P |
| C90 | `FL.Engine.status_operator` | C Q P |
| C90 | `FL.Engine.textRequires_iff` | C Q P |
| C91 | `FL.Aggregated.toString_reads_partial` | C Q P |
| C91 | `FL.Aggregated.toString_injective_partial` | C Q P |
| C91 | `FL.Activated.parameters_words` | Q P |
| C91 | `FL.Aggregated.parameters_words_partial` | C Q P |
| C91 | `FL.FuzzyText.Demo.parenthesis_violated` | C Q P |
| C91 | `FL.FuzzyText.Demo.colon_violated` | C Q P |
| C91 | `FL.FuzzyText.Demo.unnamed_violated` | C Q P |
| C92 | `FL.RuleBlock.activate_steady` | C Q P |
| C92 | `FL.RuleBlock.activateBy_reorder` | C Q P |
| C92 | `FL.RuleBlock.activate_reorder` | C Q P |
| C92 | `FL.Engine.blocks_perm` | C Q P |
| C92 | `FL.Engine.blocks_reorder` | C Q P |
| C92 | `FL.Engine.process_reordered_partial` | C Q P |
| C92 | `FL.Engine.values_reordered_partial` | C Q P |
| C92 | `FL.OutputVariable.unordered_maximum` | C Q P |
| C92 | `FL.OutputVariable.unordered_integral` | C Q P |
| C92 | `FL.OutputVariable.unordered_weighted` | C Q P |
| C92 | `FL.Activation.unordered_proportional` | C Q P |
| C92 | `FL.RuleOrder.first_violated` | C Q P |
| C92 | `FL.RuleOrder.highest_violated` | C Q P |
| C92 | `FL.RuleOrder.output_violated` | C Q P |
| C92 | `FL.RuleOrder.rounded_violated` | C Q P |
| C93 | `FL.Shape.membership_shift` | C Q P |
| C93 | `FL.Shape.tsukamoto_shift` | C Q P |
| C93 | `FL.Discrete.membership_shift` | C Q P |
| C93 | `FL.Integral.centroid_shift` | C Q P |
| C93 | `FL.Integral.defuzzify_shift` | C Q P |
| C93 | `FL.Weighted.average_shift` | C Q P |
| C93 | `FL.Defuzzifier.defuzzify_shift` | C Q P |
| C93 | `FL.OutputVariable.defuzzify_shift` | C Q P |
| C93 | `FL.Engine.process_shift_partial` | C Q P |
| C93 | `FL.Shift.sum_violated` | C Q P |
| C93 | `FL.Shift.linear_violated` | C Q P |
| C93 | `FL.Shift.rounded_violated` | C Q P |
| C94 | `FL.Converge.centroid_converges` | C Q P |
| C94 | `FL.Converge.bisector_converges` | C Q P |
| C94 | `FL.Converge.membership_integrable` | C Q P |
| C94 | `FL.Converge.centroid_tendsto` | C Q P |
| C94 | `FL.Converge.bisector_tendsto` | C Q P |
| C94 | `FL.Converge.plateau_tendsto` | C Q P |
| C94 | `FL.Converge.peak_tendsto` | C Q P |
| C94 | `FL.Converge.tame_unit` | C Q P |
| C95 | `FL.modifyLoop_split` | C Q P |
| C95 | `FL.RuleBlock.splits_effect` | C Q P |
| C95 | `FL.RuleBlock.activate_split_partial` | C Q P |
| C95 | `FL.Engine.blocks_split_partial` | C Q P |
| C95 | `FL.Engine.process_split_partial` | C Q P |
| C95 | `FL.SplitDemo.hedge_violated` | C Q P |
| C95 | `FL.SplitDemo.first_violated` | C Q P |
| C95 | `FL.SplitDemo.proportional_violated` | C Q P |
| C95 | `FL.SplitDemo.output_violated` | C Q P |
| C96 | `FL.Engine.process_alike` | C Q P |
| C96 | `FL.RuleBlock.activate_sameRules` | C Q P |
| C96 | `FL.Engine.blocks_sameRules` | C Q P |
| C96 | `FL.foldl_max_eq` | C Q P |
| C96 | `FL.Aggregated.membership_maximum` | C Q P |
| C96 | `FL.OutputVariable.sameWorth_maximum` | C Q P |
| C96 | `FL.Engine.process_sameRules_partial` | C Q P |
| C96 | `FL.Engine.process_settled_partial` | C Q P |
| C96 | `FL.OutputVariable.settled_maximal` | C Q P |
| C96 | `FL.Weighted.grouped_agree` | C Q P |
| C96 | `FL.Weighted.defuzzify_repeated` | C Q P |
| C96 | `FL.Weighted.defuzzify_set` | C Q P |
| C96 | `FL.OutputVariable.settled_weighted` | C Q P |
| C96 | `FL.RuleSetWeighted.order_violated` | C Q P |
| C96 | `FL.RuleSet.sum_violated` | C Q P |
| C96 | `FL.RuleSet.weighted_violated` | C Q P |
| C96 | `FL.RuleSet.method_violated` | C Q P |
| C97 | `FL.modifyLoop_template` | C Q P |
| C97 | `FL.RuleBlock.either_effect` | C Q P |
| C97 | `FL.RuleBlock.activate_either` | C Q P |
| C97 | `FL.Engine.blocks_either` | C Q P |
| C97 | `FL.opMax_min` | C Q P |
| C97 | `FL.Engine.process_either_partial` | C Q P |
| C97 | `FL.joins_real` | C Q P |
| C97 | `FL.joins_rounded` | C Q P |
| C97 | `FL.EitherDemo.operator_violated` | C Q P |
| C97 | `FL.EitherDemo.nan_violated` | C Q P |
| C97 | `FL.EitherDemo.not_violated` | C Q P |
| C98 | `FL.Rule.trigger_idle` | C Q P |
| C98 | `FL.RuleBlock.selectStep_idle` | C Q P |
| C98 | `FL.RuleBlock.ordered_drops` | C Q P |
| C98 | `FL.RuleBlock.activate_idle_partial` | C Q P |
| C98 | `FL.Engine.process_idle_partial` | C Q P |
| C98 | `FL.RuleBlock.proportional_idle_partial` | C Q P |
| C98 | `FL.RuleBlock.proportional_real_partial` | C Q P |
| C98 | `FL.IdleRules.proportional_violated` | C Q P |
| C99 | `FL.Engine.activateBlocks_tuned` | C Q P |
| C99 | `FL.Engine.process_tuned_earlier` | C Q P |
| C99 | `FL.Engine.process_tuned_partial` | C Q P |
| C99 | `FL.TuneDemo.formula_violated` | C Q P |
| C99 | `FL.TuneDemo.exception_violated` | C Q P |
| C100 | `FL.Engine.process_rename_partial` | C Q P |
| C100 | `FL.Engine.values_rename_partial` | C Q P |
| C100 | `FL.Aggregated.rename_grouped` | C Q P |
| C100 | `FL.RenameDemo.merged_violated` | C Q P |
| C100 | `FL.RenameDemo.formula_violated` | C Q P |
| C100 | `FL.RenameDemo.capture_violated` | C Q P |
| C101 | `FL.Engine.process_reweigh_partial` | C Q P |
| C101 | `FL.Engine.process_reweigh_real` | C Q P |
| C101 | `FL.RuleBlock.proportional_reweigh` | C Q P |
| C101 | `FL.RuleBlock.degrees_reweigh_real` | C Q P |
| C101 | `FL.scales_real` | C Q P |
| C101 | `FL.RelativeDemo.rounded_violated` | C Q P |
| C102 | `FL.Engine.process_between_partial` | C Q P |
| C102 | `FL.Engine.process_activated_partial` | C Q P |
| C102 | `FL.Engine.activateBlocks_degrees` | C Q P |
| C102 | `FL.Engine.activateBlocks_positive` | C Q P |
| C102 | `FL.Weighted.average_between` | C Q P |
| C102 | `FL.RuleBlock.activateBy_active` | C Q P |
| C102 | `FL.unboundedSum_positive` | C Q P |
| C102 | `FL.maximum_positive` | C Q P |
| C102 | `FL.hedges_positive` | C Q P |
| C102 | `FL.BetweenDemo.hedge_violated` | C Q P |
| C102 | `FL.BetweenDemo.rounded_violated` | C Q P |
| C103 | `FL.Integral.defuzzify_support_partial` | C Q P |
| C103 | `FL.Engine.process_support_partial` | C Q P |
| C103 | `FL.Engine.activateBlocks_implied` | C Q P |
| C103 | `FL.Aggregated.membership_supported` | C Q P |
| C103 | `FL.shape_supported` | C Q P |
| C103 | `FL.minimum_supports` | C Q P |
| C103 | `FL.maximum_supports` | C Q P |
| C103 | `FL.unboundedSum_supports` | C Q P |
| C103 | `FL.SupportDemo.bisector_violated` | C Q P |
| C103 | `FL.SupportDemo.unsampled_violated` | C Q P |
| C104 | `FL.RuleBlock.activate_more` | C Q P |
| C104 | `FL.RuleBlock.first_general` | C Q P |
| C104 | `FL.RuleBlock.threshold_general` | C Q P |
| C104 | `FL.RuleBlock.select_more` | C Q P |
| C104 | `FL.RuleBlock.ordered_more` | C Q P |
| C104 | `FL.RuleBlock.select_general` | C Q P |
| C105 | `FL.Engine.process_divide_partial` | C Q P |
| C105 | `FL.Engine.process_permuted_partial` | C Q P |
| C105 | `FL.Engine.blocks_divide` | C Q P |
| C105 | `FL.RuleBlock.rules_divide` | C Q P |
| C105 | `FL.Comparison.complementary` | Q P |
| C105 | `FL.DivideDemo.nan_violated` | C Q P |
| C105 | `FL.DivideDemo.equal_violated` | C Q P |
| C105 | `FL.DivideDemo.output_violated` | C Q P |
| C106 | `FL.Engine.process_enough_partial` | C Q P |
| C106 | `FL.Engine.blocks_replace` | C Q P |
| C106 | `FL.RuleBlock.enough_general` | C Q P |
| C106 | `FL.RuleBlock.enough_zero` | Q P |
| C106 | `FL.RuleBlock.triggerAll_adds` | C Q P |
| C106 | `FL.EnoughDemo.output_violated` | C Q P |
| C106 | `FL.EnoughDemo.proportional_violated` | C Q P |
| C107 | `FL.Engine.process_mute_partial` | C Q P |
| C107 | `FL.Engine.blocks_mute` | C Q P |
| C107 | `FL.RuleBlock.activate_mute` | C Q P |
| C107 | `FL.Rule.mute_real` | C Q P |
| C107 | `FL.Rule.mute_rounded` | C Q P |
| C107 | `FL.MuteDemo.proportional_violated` | C Q P |
| C107 | `FL.MuteDemo.exception_violated` | C Q P |
| C108 | `FL.Engine.process_extend_partial` | C Q P |
| C108 | `FL.Engine.activateBlocks_sees` | C Q P |
| C108 | `FL.Engine.defuzzifyAll_extend` | C Q P |
| C108 | `FL.World.sees_extend` | C Q P |
| C108 | `FL.Term.closed_of_kind` | C Q P |
| C108 | `FL.ExtraDemo.linear_violated` | C Q P |
| C108 | `FL.ExtraDemo.formula_violated` | C Q P |
| C108 | `FL.Rule.load_extend` | C Q P |
| C108 | `FL.loadRules_extend` | C Q P |
| C108 | `FL.ExtraDemo.exception_violated` | C Q P |
| C108 | `FL.ExtraDemo.capture_violated` | C Q P |
| C108 | `FL.ExtraLoadDemo.names_violated` | C Q P |
| C109 | `FL.Engine.process_addTerms` | C Q P |
| C109 | `FL.Rule.load_addTerms` | Q P |
| C109 | `FL.loadRules_addTerms` | Q P |
| C109 | `FL.World.sees_addTerms` | C Q P |
| C109 | `FL.Antecedent.load_grows` | Q P |
| C109 | `FL.Consequent.load_grows` | Q P |
| C109 | `FL.World.grows_addTerms` | Q P |
