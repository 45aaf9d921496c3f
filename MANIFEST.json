{
 "claims": [
  {
   "property": "C01",
   "status": "proved",
   "theorems": [
    "FL.compare_decides",
    "FL.compare_trichotomy",
    "FL.compare_laws",
    "FL.isEq_not_transitive"
   ],
   "note": "For every tolerance > 0, over exact reals with NaN and infinities."
  },
  {
   "property": "C02",
   "status": "proved",
   "theorems": [
    "FL.min_max_nan",
    "FL.min_max_lattice",
    "FL.min_max_algebra",
    "FL.bound_spec",
    "FL.bound_monotone"
   ],
   "note": "For every scalar type satisfying the IEEE order laws."
  },
  {
   "property": "C03",
   "status": "proved",
   "theorems": [
    "FL.Op.increment_enumerates",
    "FL.Op.box_exact",
    "FL.Op.box_length"
   ],
   "note": ""
  },
  {
   "property": "C04",
   "status": "proved",
   "theorems": [
    "FL.Op.join_split",
    "FL.Op.split_pieces_free",
    "FL.Op.split_ignoreEmpty",
    "FL.Op.split_join",
    "FL.Op.trim_spec",
    "FL.Op.trim_ends",
    "FL.Op.trim_idempotent",
    "FL.Op.trim_empty_iff"
   ],
   "note": "Also for delimiters of any length."
  },
  {
   "property": "C05",
   "status": "partial",
   "theorems": [
    "FL.Op.validName_partial",
    "FL.Op.validName_empty_violated"
   ],
   "note": "Valid characters proved always; non-emptiness and idempotence proved exactly for names that are blank or contain a valid character; refuted otherwise (\"!?\" gives the empty name)."
  },
  {
   "property": "C06",
   "status": "proved",
   "theorems": [
    "FL.tnorm_range_comm"
   ],
   "note": ""
  },
  {
   "property": "C07",
   "status": "partial",
   "theorems": [
    "FL.tnorm_zero",
    "FL.TNormKind.compute_fin",
    "FL.tnorm_one_partial",
    "FL.tnorm_one_nilpotent_violated",
    "FL.tnorm_one_nilpotent_partial"
   ],
   "note": "Annihilator proved for all norms. Identity proved for all norms except NilpotentMinimum, for which it is false for degrees below the tolerance (witness proved) and proved above it."
  },
  {
   "property": "C08",
   "status": "partial",
   "theorems": [
    "FL.tnorm_monotone",
    "FL.tnorm_associative_partial",
    "FL.tnorm_hamacher_associative_partial",
    "FL.tnorm_hamacher_associative_violated"
   ],
   "note": "Monotonicity proved for all norms, associativity for all but HamacherProduct, which is associative only up to the tolerance (witness proved)."
  },
  {
   "property": "C09",
   "status": "proved",
   "theorems": [
    "FL.snorm_range_comm",
    "FL.unboundedSum_range"
   ],
   "note": ""
  },
  {
   "property": "C10",
   "status": "partial",
   "theorems": [
    "FL.snorm_one",
    "FL.SNormKind.compute_fin",
    "FL.snorm_zero_partial",
    "FL.snorm_zero_nilpotent_violated",
    "FL.snorm_zero_nilpotent_partial"
   ],
   "note": "Identity of NilpotentMaximum is false within the tolerance of 1 (witness proved)."
  },
  {
   "property": "C11",
   "status": "partial",
   "theorems": [
    "FL.snorm_monotone",
    "FL.snorm_associative_partial",
    "FL.snorm_hamacher_associative_partial",
    "FL.snorm_hamacher_associative_violated"
   ],
   "note": "HamacherSum is associative only up to the tolerance (witness proved)."
  },
  {
   "property": "C12",
   "status": "partial",
   "theorems": [
    "FL.demorgan_partial",
    "FL.demorgan_hamacher_partial",
    "FL.demorgan_hamacher_violated"
   ],
   "note": "Exact for six families; the Hamacher pair is dual only away from the guard of each norm (witness proved)."
  },
  {
   "property": "C13",
   "status": "partial",
   "theorems": [
    "FL.hedge_range",
    "FL.HedgeKind.hedge_fin",
    "FL.hedge_crisp",
    "FL.hedge_monotone_partial",
    "FL.hedge_extremely_monotone_partial",
    "FL.hedge_extremely_monotone_violated",
    "FL.hedge_very_somewhat",
    "FL.hedge_inverses",
    "FL.hedge_extremely_seldom_partial",
    "FL.hedge_extremely_seldom_violated"
   ],
   "note": "All parts proved except two that the tolerance at 0.5 breaks: Extremely is not monotone just above 0.5 (deviation at most 4 eps^2, proved) and extremely(seldom x)=x fails in a band of width about eps (both refuted by witness)."
  },
  {
   "property": "C14",
   "status": "partial",
   "theorems": [
    "FL.Shape.membership_fin",
    "FL.Shape.membership_inf",
    "FL.Shape.membership_range_partial",
    "FL.Shape.membership_range_inf",
    "FL.Shape.membership_range_shoulder",
    "FL.Shape.triangle_negative_violated",
    "FL.Shape.trapezoid_negative_violated",
    "FL.Shape.sShape_zShape_range_violated",
    "FL.Shape.concave_negative_violated"
   ],
   "note": "Proved outside the tolerance bands; inside them the code returns negative or too large degrees (witnesses proved for every tolerance)."
  },
  {
   "property": "C15",
   "status": "proved",
   "theorems": [
    "FL.Term.membership_nan",
    "FL.Shape.membership_nan",
    "FL.Aggregated.membership_nan",
    "FL.RuleBlock.proposition_nan",
    "FL.RuleBlock.nan_not_triggered",
    "FL.RuleBlock.proportional_nan"
   ],
   "note": "All term classes with a membership function, all rules, all seven activation methods, every lawful priority queue."
  },
  {
   "property": "C16",
   "status": "proved",
   "theorems": [
    "FL.Shape.membership_fin",
    "FL.Shape.core_height",
    "FL.Shape.outside_zero",
    "FL.Shape.peak_symmetric_strict",
    "FL.Shape.linear_edges"
   ],
   "note": ""
  },
  {
   "property": "C17",
   "status": "partial",
   "theorems": [
    "FL.Shape.monotonic_terms_partial",
    "FL.Shape.sShape_zShape_monotone_partial",
    "FL.Shape.sShape_monotone_violated"
   ],
   "note": "Concave, Ramp, Sigmoid exact; SShape/ZShape up to 4h(eps/width)^2, and exact monotonicity refuted."
  },
  {
   "property": "C18",
   "status": "partial",
   "theorems": [
    "FL.Shape.tsukamoto_fin",
    "FL.Shape.tsukamoto_right_inverse_partial",
    "FL.Shape.tsukamoto_left_inverse_partial",
    "FL.Shape.tsukamoto_ramp_violated",
    "FL.Shape.tsukamoto_iff_monotonic",
    "FL.Shape.direction_spec"
   ],
   "note": "Exact away from the tolerance bands, error bound h*eps/width everywhere; exactness refuted within the bands."
  },
  {
   "property": "C19",
   "status": "partial",
   "theorems": [
    "FL.Discrete.membership_between",
    "FL.Discrete.membership_outside",
    "FL.Discrete.membership_at_partial",
    "FL.Discrete.membership_at_violated",
    "FL.Discrete.membership_bounded",
    "FL.Discrete.membership_unsorted",
    "FL.Discrete.toPairs_toVector",
    "FL.Discrete.toVector_toPairs",
    "FL.Discrete.toPairsFill_spec"
   ],
   "note": "Interpolation, bounds, outside values and both conversions proved for every list with increasing abscissae. The value at a listed point is refuted for points closer than the tolerance to the first one (the neighbouring degree is returned) and proved otherwise. Exact reals."
  },
  {
   "property": "C20",
   "status": "partial",
   "theorems": [
    "FL.Aggregated.membership_empty",
    "FL.Aggregated.membership_bounded",
    "FL.Aggregated.membership_unboundedSum",
    "FL.Aggregated.membership_perm",
    "FL.Aggregated.membership_order_partial",
    "FL.Aggregated.membership_order_violated",
    "FL.Aggregated.membership_addTerm",
    "FL.Aggregated.membership_addTerm_ge",
    "FL.Activated.membership_range"
   ],
   "note": "All parts proved. Order independence is proved for every commutative and associative operator, in particular all built-in ones but HamacherSum, which is not associative within the tolerance of 1 and for which it is refuted."
  },
  {
   "property": "C21",
   "status": "partial",
   "theorems": [
    "FL.Aggregated.grouped_spec",
    "FL.Aggregated.grouped_idempotent",
    "FL.Aggregated.grouped_ok",
    "FL.Aggregated.grouped_activationDegree",
    "FL.Aggregated.grouped_activationDegree_partial",
    "FL.Aggregated.grouped_activationDegree_violated",
    "FL.Aggregated.maximallyActivatedTerms_spec"
   ],
   "note": "Grouping and idempotence proved for every operator. Agreement with activationDegree needs 0 to be neutral on the degrees: proved for every built-in operator but NilpotentMaximum, refuted for that one within the tolerance of 1."
  },
  {
   "property": "C22",
   "status": "partial",
   "theorems": [
    "FL.Aggregated.removeTerm_remaining_partial",
    "FL.Aggregated.removeTerm_violated"
   ],
   "note": "The remaining terms are proved correct. The result is refuted at every valid position: it is a reference into storage that erase has invalidated, holding the following term or nothing."
  },
  {
   "property": "C23",
   "status": "proved",
   "theorems": [
    "FL.Formula.parse_renders",
    "FL.Formula.minimal_renders",
    "FL.Formula.parse_minimal",
    "FL.Formula.parse_redundant",
    "FL.Formula.renders_unambiguous",
    "FL.Formula.shunt_correct",
    "FL.Formula.default_coherent"
   ],
   "note": "For every factory that is coherent (the default one is), every expression of any depth: a text whose tokens write it with parentheses where precedence/associativity require them (and possibly more) loads as exactly its tree. Numbers with a sign or a signed exponent are not single tokens (the spacing of operators splits them)."
  },
  {
   "property": "C24",
   "status": "partial",
   "theorems": [
    "FL.Node.evaluate_congr",
    "FL.Node.evaluate_ok_iff",
    "FL.Node.evaluate_error",
    "FL.Formula.evaluate_renders",
    "FL.Formula.parse_sound_partial",
    "FL.Formula.parse_ok_iff",
    "FL.Formula.malformed_accepted_violated",
    "FL.Fun.membership_stateless",
    "FL.Fun.load_ok",
    "FL.Fun.load_failure_keeps_root"
   ],
   "note": "Evaluation part proved. Load time: loading implies balanced parentheses, exact operand counts and no token lost; but texts that are not infix (\"2 3 +\", \"1 max 2\") are accepted, proved as a violation."
  },
  {
   "property": "C25",
   "status": "partial",
   "theorems": [
    "FL.Formula.toPostfix_faithful",
    "FL.Formula.toInfix_faithful_partial",
    "FL.Formula.toInfix_unfaithful_violated"
   ],
   "note": "Postfix rendering proved faithful. Infix rendering writes no parentheses: faithful exactly stated for trees that need none, violation proved with witnesses for the others."
  },
  {
   "property": "C26",
   "status": "partial",
   "theorems": [
    "FL.Antecedent.load_ok_iff",
    "FL.Antecedent.load_infix_partial",
    "FL.Antecedent.load_tokens_partial",
    "FL.Antecedent.load_scrambled_violated",
    "FL.Antecedent.load_functionName_violated",
    "FL.Antecedent.default_usable",
    "FL.Antecedent.default_tidy"
   ],
   "note": "Proved for every vocabulary whose names are single words that are not keywords, hedges, or names known to the function factory (conditions stated in Tidy); a term named like a function (floor) breaks the claim, proved as a violation. load_ok_iff characterises every accepted text; scrambled texts are accepted too."
  },
  {
   "property": "C27",
   "status": "partial",
   "theorems": [
    "FL.Expr.degree_iff",
    "FL.Expr.degree_missing",
    "FL.Expr.degree_range_partial",
    "FL.degree_unboundedSum_violated",
    "FL.applyHedges_iff"
   ],
   "note": "The recursive definition and the exception for missing norms are proved for all trees, norms and hedges. Range proved for shipped norms and hedges but UnboundedSum, with which it is refuted."
  },
  {
   "property": "C28",
   "status": "partial",
   "theorems": [
    "FL.modifyLoop_exact",
    "FL.modify_partial",
    "FL.modify_total",
    "FL.modify_carry_violated"
   ],
   "note": "Refuted: the hedges of a conclusion carry over to the following ones (witness). The exact behaviour is proved for all consequents, and the claim is proved for conclusions not preceded by hedged conclusions on enabled variables."
  },
  {
   "property": "C29",
   "status": "partial",
   "theorems": [
    "FL.Rule.load_iff",
    "FL.Rule.load_outcome",
    "FL.Rule.load_wellFormed",
    "FL.Rule.load_text_only",
    "FL.Rule.uncomment_spec",
    "FL.Consequent.load_ok_iff",
    "FL.Antecedent.load_ok_iff",
    "FL.Rule.load_scrambled_violated"
   ],
   "note": "The accepted texts, the resulting rule, and failures are characterised exactly for all texts and engines. Well-formed texts load. The converse is refuted for antecedents only: scrambled antecedents load too (see C26)."
  },
  {
   "property": "C30",
   "status": "proved",
   "theorems": [
    "FL.loadRules_eq",
    "FL.loadRules_spec",
    "FL.loadRules_perm"
   ],
   "note": "Mentioning every failure: one exception per failing rule is collected; message texts are not modelled."
  },
  {
   "property": "C31",
   "status": "proved",
   "theorems": [
    "FL.RuleBlock.general_spec",
    "FL.RuleBlock.activate_default"
   ],
   "note": ""
  },
  {
   "property": "C32",
   "status": "partial",
   "theorems": [
    "FL.RuleBlock.first_spec",
    "FL.RuleBlock.last_spec",
    "FL.RuleBlock.first_partial",
    "FL.RuleBlock.last_partial",
    "FL.RuleBlock.first_disabled_violated",
    "FL.RuleBlock.last_disabled_violated"
   ],
   "note": "Refuted: disabled rules that qualify are counted. Exact behaviour proved for all blocks, and the claim when no disabled rule qualifies."
  },
  {
   "property": "C33",
   "status": "partial",
   "theorems": [
    "FL.RuleBlock.highest_spec",
    "FL.RuleBlock.lowest_spec",
    "FL.RuleBlock.Ordered.result_partial",
    "FL.RuleBlock.stableHeap_lawful",
    "FL.RuleBlock.highest_disabled_violated",
    "FL.RuleBlock.lowest_disabled_violated"
   ],
   "note": "Refuted: disabled rules take places. Exact behaviour proved for all blocks and every queue satisfying the standard, and the claim when no disabled rule is active."
  },
  {
   "property": "C34",
   "status": "partial",
   "theorems": [
    "FL.RuleBlock.proportional_spec",
    "FL.RuleBlock.proportional_partial",
    "FL.RuleBlock.proportional_negative_violated"
   ],
   "note": "Proved when degrees are finite and not negative (exact reals); refuted for negative weights, which rules accept."
  },
  {
   "property": "C35",
   "status": "proved",
   "theorems": [
    "FL.RuleBlock.threshold_spec",
    "FL.Comparison.partition",
    "FL.Comparison.parse_operator",
    "FL.Comparison.operator_parse"
   ],
   "note": ""
  },
  {
   "property": "C36",
   "status": "proved",
   "theorems": [
    "FL.Integral.defuzzify_inside",
    "FL.Integral.defuzzify_infinite",
    "FL.Integral.centroid_value",
    "FL.Integral.bisector_value"
   ],
   "note": "Exact real arithmetic; rounding is not modelled. Any membership function, range and resolution."
  },
  {
   "property": "C37",
   "status": "proved",
   "theorems": [
    "FL.Integral.maxima_spec",
    "FL.Integral.maximum_order",
    "FL.Integral.defuzzify_scale"
   ],
   "note": "maxima_spec holds for every scalar type with IEEE order; the mean and the ordering in exact real arithmetic."
  },
  {
   "property": "C38",
   "status": "partial",
   "theorems": [
    "FL.Weighted.weighted_value",
    "FL.Weighted.defuzzify_empty",
    "FL.Weighted.weighted_perm_partial",
    "FL.Weighted.weighted_order_partial",
    "FL.Weighted.weighted_perm_violated"
   ],
   "note": "Proved except that order independence needs names that identify terms (refuted otherwise), and that the sum is the average times the total only when not all degrees are zero (then the average is NaN)."
  },
  {
   "property": "C39",
   "status": "proved",
   "theorems": [
    "FL.Weighted.inferTypes_spec",
    "FL.Weighted.defuzzify_automatic",
    "FL.Weighted.defuzzify_empty",
    "FL.Weighted.tsukamoto_monotonic"
   ],
   "note": ""
  },
  {
   "property": "C40",
   "status": "partial",
   "theorems": [
    "FL.Variable.setValue_inRange",
    "FL.Variable.calls_inRange_partial",
    "FL.Variable.calls_inRange_violated"
   ],
   "note": "Refuted: changing the range or switching the lock on does not clamp the held value. Proved when the last setValue happened under the lock with the final, non-empty range."
  },
  {
   "property": "C41",
   "status": "partial",
   "theorems": [
    "FL.OutputVariable.defuzzify_spec",
    "FL.OutputVariable.defuzzify_partial",
    "FL.OutputVariable.defuzzify_previous_violated",
    "FL.OutputVariable.defuzzifyV6_spec"
   ],
   "note": "Refuted for lock-previous: the value restored is the one before the last reported (off by one). All other clauses proved for all variables."
  },
  {
   "property": "C42",
   "status": "partial",
   "theorems": [
    "FL.Engine.process_fresh",
    "FL.Engine.memoryless_partial",
    "FL.Engine.history_partial",
    "FL.Engine.twice_partial",
    "FL.MemoryDemo.memory_violated"
   ],
   "note": "Refuted for formulas that mention output variables (witness). Proved for all other engines and all histories, with disabled output variables keeping their values (C43)."
  },
  {
   "property": "C43",
   "status": "proved",
   "theorems": [
    "FL.Engine.process_variables",
    "FL.Engine.process_blocks",
    "FL.Engine.process_without_disabled_blocks",
    "FL.Proposition.degree_disabled",
    "FL.RuleBlock.general_without_disabled"
   ],
   "note": ""
  },
  {
   "property": "C44",
   "status": "partial",
   "theorems": [
    "FL.Engine.clone_spec",
    "FL.Engine.clone_partial",
    "FL.CloneDemo.clone_enabled_violated",
    "FL.CloneDemo.clone_weight_violated"
   ],
   "note": "Refuted: rules disabled or weighted by the program are enabled and reweighted in the copy. Proved for every engine whose rules are as loading their texts leaves them and whose references are up to date."
  },
  {
   "property": "C45",
   "status": "partial",
   "theorems": [
    "FL.Engine.Equipped.complete",
    "FL.Engine.ready_partial",
    "FL.Engine.ready_spaced_partial",
    "FL.Engine.textRequires_of_spaces",
    "FL.ReadyDemo.ready_tab_violated",
    "FL.ReadyDemo.ready_parenthesis_violated"
   ],
   "note": "Refuted: connectives after a tab or next to a parenthesis are not detected. Proved for all engines whose connectives are written between spaces."
  },
  {
   "property": "C46",
   "status": "partial",
   "theorems": [
    "FL.Slot.get_spec",
    "FL.Slot.remove_spec",
    "FL.Slot.at_spec_partial",
    "FL.Slot.only_list",
    "FL.Slot.insert_violated",
    "FL.slots_lawful",
    "FL.Variable.termSlot_spec",
    "FL.Engine.setInputValue_spec"
   ],
   "note": "All list operations of engines, variables and rule blocks are characterised; insertion beyond the end is undefined behaviour in the code (proved as a violation)."
  },
  {
   "property": "C47",
   "status": "proved",
   "theorems": [
    "FL.Variable.activations_spec",
    "FL.Variable.highestMembership_spec"
   ],
   "note": "Terms whose evaluation has undefined behaviour are excluded; throwing terms report NaN."
  },
  {
   "property": "C48",
   "status": "partial",
   "theorems": [
    "FL.Benchmark.numberOfErrors_eq",
    "FL.Benchmark.counts_spec",
    "FL.Benchmark.allErrors_partial",
    "FL.Benchmark.numberOfErrors_sum_partial",
    "FL.Benchmark.numberOfErrors_sign",
    "FL.Benchmark.minus_one_violated",
    "FL.Benchmark.accuracyErrors_eq",
    "FL.Benchmark.meanSquaredError_eq",
    "FL.Benchmark.deviations_ne",
    "FL.Benchmark.meanSquaredError_partial",
    "FL.Benchmark.mean_nan_violated"
   ],
   "note": "Refuted when the errors cannot be computed: the counts are -1, so the sums do not hold, and the mean squared error is NaN (witnesses). Proved for all tables for which errors can be computed; the mean is over exact real arithmetic."
  },
  {
   "property": "C49",
   "status": "proved",
   "theorems": [
    "FL.ConstructionFactory.calls_find",
    "FL.ConstructionFactory.history",
    "FL.ConstructionFactory.history_from",
    "FL.CloningFactory.run_step",
    "FL.CloningFactory.call_value",
    "FL.CloningFactory.interleave_spec",
    "FL.CloningFactory.copy_spec",
    "FL.CloningFactory.assignFrom_spec",
    "FL.CloningFactory.lookup_spec",
    "FL.CloningFactory.history",
    "FL.CloningFactory.register_leak",
    "FL.CloningFactory.shared_object_violated"
   ],
   "note": "Construction factories for all histories. Cloning factories with explicit memory, for all histories that register new objects (or null), also interleaved with those of a copy; registering one object under two names deletes it twice and registering a name again leaks the earlier object (witnesses outside the claim)."
  },
  {
   "property": "C50",
   "status": "proved",
   "theorems": [
    "FL.Op.scale_fin",
    "FL.Op.scale_affine",
    "FL.Op.scale_inverse",
    "FL.Op.scale_compose",
    "FL.Op.scaleBounded_range",
    "FL.Op.midpoints_spec"
   ],
   "note": "Over exact reals."
  },
  {
   "property": "C51",
   "status": "partial",
   "theorems": [
    "FL.Fll.fromString_toString",
    "FL.Fll.toString_reading",
    "FL.Fll.reading_ok_iff",
    "FL.Fll.loads_of_noFunction",
    "FL.Fll.roundTrip_partial",
    "FL.FllExamples.text_engine",
    "FL.FllExamples.activation_violated",
    "FL.FllExamples.height_violated",
    "FL.FllExamples.blanks_violated",
    "FL.FllExamples.comment_violated",
    "FL.FllExamples.formula_violated",
    "FL.FllExamples.norm_violated",
    "FL.FllExamples.name_violated",
    "FL.FllExamples.description_violated"
   ],
   "note": "Proved for all engines of any size whose names and descriptions are single lines, whose norms have classes, whose rule blocks have activation methods, whose formulas mention only earlier variables, and whose heights do not round to 1.000; given that printed numbers can be read (LawfulText, LawfulInt, proved for rationals). The importer is computed exactly on exported text (what is kept and what is rounded). Refuted with witnesses when any of these conditions is dropped."
  },
  {
   "property": "C52",
   "status": "partial",
   "theorems": [
    "FL.odometer_box",
    "FL.grid_length",
    "FL.fuel_suffices",
    "FL.FldExporter.writeGrid_partial",
    "FL.FldExporter.lines_partial",
    "FL.FldExporter.points_partial",
    "FL.FldExporter.write_spec",
    "FL.FldExporter.writeRow_spec",
    "FL.FldExporter.writeRow_empty",
    "FL.Benchmark.prepare_spec",
    "FL.gridPoints_length",
    "FL.sample_partial",
    "FL.gridPoints_within_partial",
    "FL.gridPoints_corner_partial",
    "FL.gridPoints_nodup_partial",
    "FL.resolution_all_partial",
    "FL.resolution_no_inputs_violated",
    "FL.resolution_each",
    "FL.GridDemo.inactive_violated",
    "FL.GridDemo.negative_resolution_violated",
    "FL.GridDemo.no_inputs_violated"
   ],
   "note": "Refuted for engines without inputs, for values below one and for inactive variables that lock a value out of range (witnesses). Proved for all other engines, with coordinates over exact real arithmetic."
  },
  {
   "property": "C53",
   "status": "partial",
   "theorems": [
    "FL.Term.configure_shape",
    "FL.Term.configure_discrete",
    "FL.Term.configure_constant",
    "FL.Term.configure_linear",
    "FL.Term.configure_function",
    "FL.Term.configure_tooFew",
    "FL.Term.configure_blank",
    "FL.Term.configure_empty_partial",
    "FL.Term.configure_empty_violated",
    "FL.Term.configure_height_violated",
    "FL.Term.configure_constant_violated",
    "FL.Term.configure_halfway",
    "FL.Term.configure_linear_wrong",
    "FL.Term.configure_discrete_wrong",
    "FL.Term.configure_constant_words",
    "FL.reread_close",
    "FL.reread_special"
   ],
   "note": "Round trip proved for every class and all parameter values, given that printed numbers can be read (LawfulText, proved for rationals with three decimals). Refuted for Function terms configured with the empty string, for the height of Constant, Linear and Function terms, and a Constant configured with blanks is undefined behaviour (witnesses)."
  },
  {
   "property": "C54",
   "status": "proved",
   "theorems": [
    "FL.Engine.restart_spec",
    "FL.Engine.restart_values",
    "FL.Engine.restart_idempotent"
   ],
   "note": ""
  },
  {
   "property": "C55",
   "status": "proved",
   "theorems": [
    "FL.Op.mean_fin",
    "FL.Op.mean_between",
    "FL.Op.variance_fin",
    "FL.Op.variance_nonneg",
    "FL.Op.variance_translate",
    "FL.Op.standardDeviation_sqrt"
   ],
   "note": "Over exact reals."
  },
  {
   "property": "C56",
   "status": "partial",
   "theorems": [
    "FL.Op.replaceAll_eq",
    "FL.Op.replaceFirst_drops_rest_violated",
    "FL.Op.findReplace_diverges"
   ],
   "note": "replaceAll proved for non-empty patterns; replaceFirst drops the text after the first occurrence (refuted), and an empty pattern never terminates."
  },
  {
   "property": "C57",
   "status": "partial",
   "theorems": [
    "FL.Benchmark.runRows_rows",
    "FL.Benchmark.run_partial",
    "FL.Benchmark.run_complete_partial",
    "FL.Benchmark.run_perm_partial",
    "FL.Benchmark.run_again_partial",
    "FL.Benchmark.run_no_engine",
    "FL.Benchmark.run_short_partial",
    "FL.RunDemo.run_memory_violated"
   ],
   "note": "Refuted for engines with memory (formulas that read outputs, locked previous values; witness). Proved for all memoryless engines, all tables and all orders."
  },
  {
   "property": "C58",
   "status": "partial",
   "theorems": [
    "FL.FldExporter.benchmark_partial",
    "FL.FldExporter.benchmark_errors_partial",
    "FL.FldExporter.benchmark_mean_partial",
    "FL.RunDemo.own_data_violated"
   ],
   "note": "Refuted for engines with memory (witness). Proved for all memoryless engines and all grids with at least one active input."
  },
  {
   "property": "C59",
   "status": "partial",
   "theorems": [
    "FL.Benchmark.readLines_data",
    "FL.Benchmark.readLines_spec",
    "FL.Benchmark.prepareText_spec",
    "FL.FldExporter.prepareText_partial",
    "FL.FldExporter.writeLines_data",
    "FL.FldExporter.writeReader_spec",
    "FL.Term.toScalars_error",
    "FL.Term.toScalars_ok",
    "FL.Op.words_join_blank",
    "FL.DataDemo.csv_violated",
    "FL.DataDemo.header_violated",
    "FL.DataDemo.comment_first_violated"
   ],
   "note": "Reading is characterised for all texts. The round trip is refuted for separators other than blanks, for headers whose names are numbers, and headers after a comment raise (witnesses); proved for text separated by blanks whose numbers can be read back."
  },
  {
   "property": "C60",
   "status": "proved",
   "theorems": [
    "FL.linearMembership_eq",
    "FL.linearMembership_noEngine",
    "FL.membership_argument",
    "FL.linearMembership_fin",
    "FL.linearMembership_affine",
    "FL.linearMembership_linear"
   ],
   "note": ""
  },
  {
   "property": "C61",
   "status": "proved",
   "theorems": [
    "FL.Engine.Sound.process",
    "FL.Engine.Sound.history",
    "FL.Engine.Sound.answer",
    "FL.Engine.sound_config",
    "FL.Engine.sound_of_loaded",
    "FL.Term.evaluates_iff",
    "FL.Fun.load_evaluates",
    "FL.Discrete.increasing_evaluates",
    "FL.Benchmark.rows_sound",
    "FL.SoundDemo.demo_sound",
    "FL.SoundDemo.demo_mixed_violated",
    "FL.SoundDemo.demo_linear_violated"
   ],
   "note": "For all engines, inputs and histories, over every scalar. Which terms can be evaluated is characterised for every class (for Discrete terms: points in increasing order, over the extended reals). Being ready (Engine::isReady) is not enough: two witnesses of engines that are ready, with loaded rules, and fail."
  },
  {
   "property": "C62",
   "status": "partial",
   "theorems": [
    "FL.Engine.type_spec",
    "FL.Engine.type_config",
    "FL.Engine.type_process",
    "FL.Engine.type_perm",
    "FL.Engine.type_perm_outputs",
    "FL.Engine.type_serves",
    "FL.ConfigureDemo.inverse_raises_violated",
    "FL.ConfigureDemo.hybrid_violated"
   ],
   "note": "The kind reported is characterised for all engines. Refuted against the documentation in Engine.h: engines whose weighted defuzzifier does not suit the terms are reported as inverse Tsukamoto even if processing them raises, and mixtures of Takagi-Sugeno and Tsukamoto outputs are reported as inverse Tsukamoto, not as hybrid (witnesses)."
  },
  {
   "property": "C63",
   "status": "partial",
   "theorems": [
    "FL.Variable.sort_perm",
    "FL.Variable.sort_error",
    "FL.Variable.centroid_spec",
    "FL.Variable.centroid_error",
    "FL.Variable.sort_sorted_partial",
    "FL.Variable.sort_unique_partial",
    "FL.ConfigureDemo.sort_nan_violated"
   ],
   "note": "Sorting is a permutation for all terms. Order refuted when a centroid is NaN, e.g. for a term outside the range of the variable (witness); proved whenever no centroid is NaN."
  },
  {
   "property": "C64",
   "status": "proved",
   "theorems": [
    "FL.Engine.configure_spec",
    "FL.Engine.configure_twice",
    "FL.Engine.configure_equipped",
    "FL.Engine.configure_complete",
    "FL.Engine.configure_ready",
    "FL.Engine.configure_type",
    "FL.Engine.construct_iff",
    "FL.Engine.construct_error",
    "FL.Engine.configureNames_iff",
    "FL.Engine.configureNames_raises"
   ],
   "note": ""
  },
  {
   "property": "C65",
   "status": "proved",
   "theorems": [
    "FL.Rounded.compare_trichotomy",
    "FL.Rounded.compare_laws"
   ],
   "note": "For every format with monotone odd rounding; binary64 with rounding to nearest is proved to be one."
  },
  {
   "property": "C66",
   "status": "partial",
   "theorems": [
    "FL.Rounded.tnorm_degree",
    "FL.Rounded.snorm_degree",
    "FL.Rounded.norm_monotone",
    "FL.Rounded.hedge_degree",
    "FL.Rounded.antecedent_degree",
    "FL.Rounded.fuzzy_degree",
    "FL.Rounded.step_degree",
    "FL.Rounded.line_shapes_degree_partial",
    "FL.Rounded.hamacherSum_violated",
    "FL.Rounded.not_hamacherSum_violated",
    "FL.Rounded.norm_bounds_violated",
    "FL.Rounded.norm_monotone_violated",
    "FL.Binary64.tight",
    "FL.Binary64.root"
   ],
   "note": "Refuted for double: HamacherSum of 1 and 0.1 exceeds 1 and its negation is negative; BoundedDifference and HamacherProduct may exceed an argument, AlgebraicSum and EinsteinSum may be less than one; EinsteinProduct, HamacherProduct, AlgebraicSum, EinsteinSum and HamacherSum are not monotone (witnesses). Everything else in the claim is proved for all doubles, including that all other norms remain in [0,1]; square roots are assumed to be rounded to a neighbour. Membership functions: Rectangle, Binary, Triangle, Trapezoid and Ramp."
  },
  {
   "property": "C67",
   "status": "proved",
   "theorems": [
    "FL.Strict.fromString_iff",
    "FL.Strict.fromString_rows",
    "FL.Strict.process_iff",
    "FL.Strict.input_iff",
    "FL.Strict.output_iff",
    "FL.Strict.block_iff",
    "FL.Strict.flag_iff",
    "FL.Strict.tnorm_iff",
    "FL.Strict.snorm_iff",
    "FL.Strict.range_iff",
    "FL.Strict.term_iff",
    "FL.Strict.defuzzifier_iff",
    "FL.Strict.activation_iff",
    "FL.Strict.comparison_iff",
    "FL.Strict.line_cases",
    "FL.Strict.silent_line",
    "FL.Strict.says_line",
    "FL.Strict.speechless_line",
    "FL.Strict.flag_error",
    "FL.Strict.norm_error",
    "FL.Strict.key_error"
   ],
   "note": "Exact characterisation, any text and any separator. What a number is, is the ofText of the scalar; the words after the class of a term are given to configure (C53)."
  },
  {
   "property": "C68",
   "status": "partial",
   "theorems": [
    "FL.Fcl.fromString_toString",
    "FL.Fcl.run_input",
    "FL.Fcl.run_output",
    "FL.Fcl.run_ruleBlock",
    "FL.Fcl.readTerm_shape",
    "FL.Fcl.readTerm_discrete",
    "FL.Fcl.readTerm_constant",
    "FL.Fcl.readTerm_linear",
    "FL.Fcl.readTerm_function",
    "FL.Fcl.reading_ok_iff",
    "FL.Fcl.toString_reading",
    "FL.Fcl.roundTrip_partial",
    "FL.FclExamples.text_engine",
    "FL.FclExamples.enabled_violated",
    "FL.FclExamples.resolution_violated",
    "FL.FclExamples.activation_violated",
    "FL.FclExamples.height_violated",
    "FL.FclExamples.formula_violated",
    "FL.FclExamples.discrete_violated",
    "FL.FclExamples.duplicate_violated",
    "FL.FclExamples.name_violated",
    "FL.FclExamples.blockName_violated",
    "FL.FclExamples.norm_violated",
    "FL.FclExamples.default_violated",
    "FL.FclExamples.ruleText_violated"
   ],
   "note": "The engine read is given exactly for all engines of any size with different and valid names, rule blocks named by one word, norms of the library, and texts without comments and semicolons; given that printed numbers can be read and have no signs of the language (PlainText, proved for rationals). When reading succeeds is characterised. Refuted for what the language cannot express and for the engines excluded (witnesses)."
  },
  {
   "property": "C69",
   "status": "proved",
   "theorems": [
    "FL.FclStrict.fromString_iff",
    "FL.FclStrict.builds_iff",
    "FL.FclStrict.input_iff",
    "FL.FclStrict.output_iff",
    "FL.FclStrict.block_iff",
    "FL.FclStrict.tnorm_iff",
    "FL.FclStrict.snorm_iff",
    "FL.FclStrict.defuzzifier_iff",
    "FL.FclStrict.enabled_iff",
    "FL.FclStrict.range_iff",
    "FL.FclStrict.default_iff",
    "FL.FclStrict.default_ub",
    "FL.FclStrict.locks_iff",
    "FL.FclStrict.term_iff",
    "FL.FclStrict.clean_eq",
    "FL.FclStrict.layout_tail",
    "FL.FclStrict.unknown_word",
    "FL.FclStrictExamples.type_unchecked",
    "FL.FclStrictExamples.lock_dropped",
    "FL.FclStrictExamples.undefined_reached",
    "FL.FclStrictExamples.title_inside"
   ],
   "note": "Exact characterisation for any text. What a number is, is the ofText of the scalar; the parameters of a term are given to configure (C53). The grammar is wider than the language: types are not read, locks after two separators are dropped, an engine may be named inside a block; and one text reaches undefined behaviour (theorems)."
  },
  {
   "property": "C70",
   "status": "partial",
   "theorems": [
    "FL.Fis.createInstance_read",
    "FL.Fis.parseTerm_line",
    "FL.Fis.importInput_body",
    "FL.Fis.importOutput_body",
    "FL.Fis.rule_read",
    "FL.Fis.fromString_toString",
    "FL.Fis.rule_load",
    "FL.Fis.rule_same",
    "FL.Fis.reading_ok_iff",
    "FL.Fis.roundTrip_partial",
    "FL.FisExamples.text_engine",
    "FL.FisExamples.flags_violated",
    "FL.FisExamples.activation_violated",
    "FL.FisExamples.operators_violated",
    "FL.FisExamples.outputs_violated",
    "FL.FisExamples.blocks_violated",
    "FL.FisExamples.hedges_violated",
    "FL.FisExamples.fractions_violated",
    "FL.FisExamples.combinations_violated",
    "FL.FisExamples.propositions_violated",
    "FL.FisExamples.antecedent_violated",
    "FL.FisExamples.connectors_violated",
    "FL.FisExamples.weight_violated",
    "FL.FisExamples.inputs_violated",
    "FL.FisExamples.formula_violated",
    "FL.FisExamples.blanks_violated",
    "FL.FisExamples.name_violated",
    "FL.FisExamples.function_violated",
    "FL.FisExamples.code_ub",
    "FL.FisExamples.class_ub",
    "FL.FisExamples.outOfRange_witness"
   ],
   "note": "The engine read is given exactly for all engines of any size with valid names, norms of the library, and rules with one kind of operator, at most one proposition about each variable and hedges that have a code; the rules read are loaded and are those written, with the propositions in the order of the variables and `not` first. When reading succeeds is characterised. Assumes that codes of propositions are printed and read well enough (CodeText, proved for rationals). Refuted for what the format cannot express (witnesses)."
  },
  {
   "property": "C71",
   "status": "proved",
   "theorems": [
    "FL.FisStrict.fromString_iff",
    "FL.FisStrict.sections_iff",
    "FL.FisStrict.section_iff",
    "FL.FisStrict.system_iff",
    "FL.FisStrict.input_iff",
    "FL.FisStrict.output_iff",
    "FL.FisStrict.range_iff",
    "FL.FisStrict.term_iff",
    "FL.FisStrict.class_iff",
    "FL.FisStrict.ordered_iff",
    "FL.FisStrict.rule_iff",
    "FL.FisStrict.says_iff",
    "FL.FisStrict.says_ub",
    "FL.FisStrict.codes_iff",
    "FL.FisStrict.connects_iff",
    "FL.FisStrict.tnorm_iff",
    "FL.FisStrict.snorm_iff",
    "FL.FisStrict.defuzzifier_iff"
   ],
   "note": "Exact for all texts. Configuring a term from its parameters and loading a rule are model functions, characterised by other claims (C53, C67). Known oddities are part of the grammar: lines of quotes only, values of the system with several signs =, codes with no term, connectors that do not matter."
  },
  {
   "property": "C72",
   "status": "partial",
   "theorems": [
    "FL.Rounded.sample_range",
    "FL.Rounded.sample_inner",
    "FL.Rounded.extreme_range",
    "FL.Rounded.mean_range_partial",
    "FL.Rounded.centroid_range_partial",
    "FL.Rounded.weighted_near",
    "FL.Rounded.double_sampled",
    "FL.Rounded.double_inside_partial",
    "FL.Rounded.sample_violated",
    "FL.Rounded.mean_range_violated",
    "FL.Rounded.centroid_violated",
    "FL.Rounded.weighted_violated",
    "FL.Binary64.fine",
    "FL.Flt.mean_near",
    "FL.Flt.ratio_near"
   ],
   "note": "For every format with the error bounds of IEEE 754 (Fine, proved for binary64). SmallestOfMaximum and LargestOfMaximum stay in every range that does not underflow; MeanOfMaximum, Bisector and Centroid in ranges wide compared with the errors of their bounds (about 3e-8 of the bounds for the default resolution) and, for Centroid, with degrees that do not underflow. The results are near the exact means. Refuted for narrow ranges and tiny degrees; the weighted average of equal values may differ from them, and the order of terms matters (witnesses)."
  },
  {
   "property": "C73",
   "status": "partial",
   "theorems": [
    "FL.Double.reads",
    "FL.Double.reads_exact",
    "FL.Double.reads_large",
    "FL.Double.read_nearest",
    "FL.Double.reread_steady",
    "FL.Double.isEq_one",
    "FL.Double.fll_partial",
    "FL.Double.fcl_partial",
    "FL.Double.fis_partial",
    "FL.Double.small_violated",
    "FL.Double.triangle_violated",
    "FL.Double.code_violated",
    "FL.Double.std_whole",
    "FL.Binary64.nearest",
    "FL.Fis.codeText",
    "FL.Flt.lawfulText",
    "FL.Flt.plainText",
    "FL.Flt.lawfulInt"
   ],
   "note": "For binary64 and every number of decimals from 0 to 300. The laws assumed of the text of numbers in the theorems about FLL, FCL and FIS are proved, so these apply to doubles. Partial: FIS needs two decimals or more (with one, \"any a\" is read as the next term) and exact floor and fmod; engines as in C51, C68 and C70. Refuted: small numbers are written as zero, not as the nearest decimal, and a narrow triangle vanishes."
  },
  {
   "property": "C74",
   "status": "partial",
   "theorems": [
    "FL.Cpp.execute_toString",
    "FL.Cpp.reading_ok_iff",
    "FL.Cpp.toString_reading",
    "FL.Cpp.roundTrip_partial",
    "FL.Cpp.localNames_numbered",
    "FL.Cpp.isIdent_validName",
    "FL.Double.cpp_partial",
    "FL.CppExamples.good_engine",
    "FL.CppExamples.weighted_violated",
    "FL.CppExamples.infinite_violated",
    "FL.CppExamples.nan_violated",
    "FL.CppExamples.quote_violated",
    "FL.CppExamples.newline_violated",
    "FL.CppExamples.backslash_violated",
    "FL.CppExamples.identifier_violated",
    "FL.CppExamples.duplicate_violated",
    "FL.CppExamples.empty_violated",
    "FL.CppExamples.linear_violated",
    "FL.CppExamples.linear_input_violated",
    "FL.CppExamples.height_violated",
    "FL.CppExamples.formula_violated",
    "FL.CppExamples.rule_violated",
    "FL.CppExamples.norm_violated",
    "FL.CppExamples.enabled_violated"
   ],
   "note": "The fragment of C++ is modelled with its tokens, syntax, scopes and the constructors and setters of the library. For all well-formed engines execute_toString gives the exact result of executing the code, reading_ok_iff says when it raises nothing, and roundTrip_partial that the engine built has the FLL text of the original. Names are always good without the names of variables (localNames_numbered). Refuted: weighted defuzzifiers and infinite parameters with prefixes, parameters NaN, quotes, backslashes and line ends in texts, names that are not identifiers or occur twice, empty Discrete terms, heights of Discrete terms, coefficients that do not match the input variables, formulas of norms, and disabled rules."
  },
  {
   "property": "C75",
   "status": "partial",
   "theorems": [
    "FL.Console.reaches_text",
    "FL.Console.reaches_word",
    "FL.Console.reaches_some",
    "FL.Console.reaches_row",
    "FL.Console.reaches_process",
    "FL.Console.reaches_discard",
    "FL.Console.reaches_restart",
    "FL.Console.reaches_help",
    "FL.Console.reaches_ignored",
    "FL.Console.interactive_reaches",
    "FL.Console.loop_config",
    "FL.Console.interactive_safe",
    "FL.Console.interactive_sound",
    "FL.Console.reply_answer",
    "FL.Console.history_partial",
    "FL.Console.session_partial",
    "FL.Console.Demo.memory_violated",
    "FL.Console.Demo.lock_violated",
    "FL.Console.Demo.restart_violated",
    "FL.Console.Demo.unfinished_violated",
    "FL.Console.Demo.quit_violated",
    "FL.Console.Demo.no_inputs_violated",
    "FL.Console.Demo.letters_violated"
   ],
   "note": "The effect of every key is given for every session. For engines without memory the rows typed are answered as by process, whatever was typed before (history_partial, session_partial); no keys make the console of a sound engine fail (interactive_sound). Refuted: the output variables are defuzzified twice, so values differ from those of process for formulas that mention output variables and for locked previous values; R keeps the values typed; text without a blank after it is dropped by P; the text of Q is never written; a blank raises out_of_range without input variables; digits d of hexadecimal numbers are commands."
  },
  {
   "property": "C76",
   "status": "partial",
   "theorems": [
    "FL.Console.Demo.hybrid_file",
    "FL.Console.parse_known",
    "FL.Console.parse_files",
    "FL.Console.parse_odd",
    "FL.Console.parse_unknown",
    "FL.Console.usage_ok",
    "FL.Console.extension_stem",
    "FL.Console.extension_none",
    "FL.Console.importText_endLines",
    "FL.Console.main_known",
    "FL.Console.main_order",
    "FL.Console.main_unknown",
    "FL.Console.main_few",
    "FL.Console.main_odd",
    "FL.Console.writes_text",
    "FL.Console.prints_text",
    "FL.Console.example_iff",
    "FL.Console.writes_example",
    "FL.Console.process_decimals",
    "FL.Console.two_files",
    "FL.Console.converts",
    "FL.Console.copies_fll_partial",
    "FL.Console.copies_fcl_partial",
    "FL.Console.converts_cpp_partial",
    "FL.Console.converts_java_partial",
    "FL.Console.writes_data",
    "FL.Console.writes_values_partial",
    "FL.Console.writes_interactive",
    "FL.Console.writes_session_partial",
    "FL.Console.touched",
    "FL.Console.import_violated",
    "FL.Console.format_violated",
    "FL.Console.data_violated",
    "FL.Console.Demo.accepted",
    "FL.Console.Demo.violated"
   ],
   "note": "Given for every list of arguments and all contents of files. The commands export-examples, benchmark and benchmarks are in C80. Partial: copies under the hypotheses of C51, C68, C74 and C77, grids as C52, sessions as C75. Refuted: the output file is emptied before the engine is imported and the data are read, so a failing conversion loses what was there, and data written to their own file are lost; NaN as number of decimals or values is undefined behaviour."
  },
  {
   "property": "C77",
   "status": "partial",
   "theorems": [
    "FL.JavaExamples.keywords_listed",
    "FL.Java.execute_toString",
    "FL.Java.execute_cpp",
    "FL.Java.roundTrip_partial",
    "FL.Java.Good.of_cpp",
    "FL.Double.java_partial",
    "FL.JavaExamples.text_engine",
    "FL.JavaExamples.good_engine",
    "FL.JavaExamples.infinite_violated",
    "FL.JavaExamples.nan_violated",
    "FL.JavaExamples.quote_violated",
    "FL.JavaExamples.identifier_violated",
    "FL.JavaExamples.class_violated",
    "FL.JavaExamples.height_violated"
   ],
   "note": "The code is read with the tokens and syntax of the fragment of Java, and executed as the statements of C++ that do the same. For all well-formed engines execute_toString gives the exact result, execute_cpp that it is the result of the C++ code, and roundTrip_partial that the engine built has the FLL text of the original. Refuted: infinite and NaN parameters, quotes and line ends in texts, keywords of Java as names, names of classes that are needed, heights of Discrete terms."
  },
  {
   "property": "C78",
   "status": "partial",
   "theorems": [
    "FL.RScriptDemo.reserved_listed",
    "FL.RScriptExporter.script_runs",
    "FL.RScriptExporter.exporting_runs_partial",
    "FL.RScriptExporter.exportingReader_runs_partial",
    "FL.RScriptExporter.importing_runs_partial",
    "FL.RScriptExporter.toString_runs_partial",
    "FL.RScriptExporter.rows_partial",
    "FL.RScriptExporter.toString_empty",
    "FL.R.readDelim_text",
    "FL.RScriptDemo.texts_violated",
    "FL.RScriptDemo.names_violated",
    "FL.RScriptDemo.const_violated"
   ],
   "note": "Scripts are read with the tokens and lines of a fragment of R and executed with tables, plots and figures as data. For all engines whose texts need no escape sequences and whose variables have distinct names of R, every script runs and gives the table, the plots, the file and the drawing expected. Refuted: quotes and backslashes in texts, names of fuzzylite that are no names of R, and exporting changes the engine, whose constness is cast away."
  },
  {
   "property": "C79",
   "status": "partial",
   "theorems": [
    "FL.TimedBenchmark.unit_named",
    "FL.ResultsDemo.cell_text",
    "FL.TimedBenchmark.results_names",
    "FL.TimedBenchmark.header_spec",
    "FL.TimedBenchmark.results_header",
    "FL.TimedBenchmark.expectedNames_nodup",
    "FL.TimedBenchmark.format_horizontal",
    "FL.TimedBenchmark.format_vertical",
    "FL.TimedBenchmark.run_partial",
    "FL.TimedBenchmark.reset_spec",
    "FL.TimedBenchmark.engine_results",
    "FL.TimedBenchmark.convert_spec",
    "FL.TimedBenchmark.convert_trans",
    "FL.TimedBenchmark.time_results",
    "FL.TimedBenchmark.single_times",
    "FL.TimedBenchmark.error_results_partial",
    "FL.TimedBenchmark.nrmse_violated",
    "FL.ResultsDemo.times_violated",
    "FL.ResultsDemo.mean_violated",
    "FL.ResultsDemo.small_violated",
    "FL.ResultsDemo.columns_violated"
   ],
   "note": "Names, header, tables, counts, conversion and statistics are proved for all benchmarks (statistics over exact real arithmetic; several runs for engines without memory). Refuted: the single times are not converted to the unit, nrmse is not normalised, the mean of squares leaves out evaluations within the tolerance, small numbers in scientific notation are written as zero, and the header of the console does not fit rows without errors."
  },
  {
   "property": "C80",
   "status": "partial",
   "theorems": [
    "FL.Console.examples_listed",
    "FL.Console.benchmark_partial",
    "FL.Console.benchmark_file_partial",
    "FL.Console.benchmarks_partial",
    "FL.Console.benchmarks_file_partial",
    "FL.Console.benchmarks_stop",
    "FL.Console.benchmark_refused",
    "FL.Console.Measured.values",
    "FL.Console.program_options",
    "FL.Console.export_examples_partial",
    "FL.Console.export_frame",
    "FL.Console.examples_named",
    "FL.Console.negative_violated",
    "FL.Console.java_violated",
    "FL.Console.CommandsDemo.lists_violated",
    "FL.Console.CommandsDemo.columns_violated",
    "FL.Console.CommandsDemo.emptied_violated",
    "FL.Console.CommandsDemo.missing_violated",
    "FL.Console.CommandsDemo.rounded_violated"
   ],
   "note": "The tables, the rows kept after an exception, refusals, and the 273 files of the examples are proved for all inputs whose output file is none of the files read and can be created, with at least one run. Refuted: output files that are read are emptied first, lists of different lengths are cut, rows without runs are short, files that cannot be created are passed over, sources that are targets are rounded, and the Java files do not compile."
  },
  {
   "property": "C81",
   "status": "partial",
   "theorems": [
    "FL.Proposition.toString_words",
    "FL.Antecedent.postfix_faithful_partial",
    "FL.Antecedent.prefix_faithful_partial",
    "FL.Antecedent.infix_reload_partial",
    "FL.Antecedent.infix_faithful_iff",
    "FL.Antecedent.infix_degree_partial",
    "FL.Antecedent.infix_degree_builtin_partial",
    "FL.Antecedent.load_over",
    "FL.Antecedent.text_again_partial",
    "FL.Antecedent.unloaded_refused",
    "FL.Consequent.toString_faithful_partial",
    "FL.parentheses_violated",
    "FL.degree_violated",
    "FL.notations_violated"
   ],
   "note": "For engines with usable and unambiguous names: postfix and prefix texts determine the tree, the text of a consequent loads into the same conclusions, and the infix text loads into the tree that needs no parentheses, which is the same tree exactly if it needs none and has the same degree if there is one kind of associative operator. Refuted: parentheses that are necessary are not written, which changes the degree; prefix and postfix texts are accepted by the loader as other antecedents."
  },
  {
   "property": "C82",
   "status": "partial",
   "theorems": [
    "FL.Aggregated.fuzzyValue_reads_partial",
    "FL.Variable.fuzzify_partial",
    "FL.Variable.fuzzyInputValue_partial",
    "FL.OutputVariable.fuzzyOutputValue_partial",
    "FL.OutputVariable.fuzzyOutputValue_degree_partial",
    "FL.magnitudes_rat",
    "FL.magnitudes_double",
    "FL.FuzzyValue.fuzzify_blanks_violated",
    "FL.FuzzyValue.fuzzyOutputValue_names_violated",
    "FL.FuzzyValue.fuzzyOutputValue_degree_violated",
    "FL.FuzzyValue.fuzzify_decimals_violated"
   ],
   "note": "For names without blanks the texts read back as the terms in order with sign, magnitude and name; for output variables also the names must differ, and the degree shown is the activation degree if zero is neutral for the aggregation operator on the degrees. Refuted: names with blanks make texts ambiguous, terms of one name are merged in the value of output variables, degrees above one under NilpotentMaximum are shown as they are not used, and degrees below the decimals are shown as zero or minus zero."
  },
  {
   "property": "C83",
   "status": "partial",
   "theorems": [
    "FL.Rounded.smooth_degree",
    "FL.Rounded.smooth_number_partial",
    "FL.Rounded.curve_degree_partial",
    "FL.Rounded.concave_degree_partial",
    "FL.Rounded.ramp_monotone",
    "FL.Rounded.double",
    "FL.Rounded.easy_elementary",
    "FL.Rounded.easy_defined",
    "FL.Rounded.easy_squares",
    "FL.Rounded.curve_violated",
    "FL.Rounded.overflow_violated",
    "FL.Rounded.concave_violated",
    "FL.Rounded.number_violated",
    "FL.Rounded.discrete_violated"
   ],
   "note": "Bell, Cosine, Gaussian, GaussianProduct, Sigmoid, SigmoidDifference, SigmoidProduct, Spike, Rectangle and Binary: for all parameters and arguments, given bounds on exp, cos and pow. SShape, ZShape and PiShape: moderate parameters with slopes wide compared with the tolerance. Concave: parameters up to 2^27. Triangle, Trapezoid and Ramp are in C66. Refuted for doubles: SShape, ZShape, PiShape and Concave leave [0,1] for large parameters, Discrete leaves the range of its ordinates, Gaussian and Ramp are not a number if widths underflow or overflow."
  },
  {
   "property": "C84",
   "status": "partial",
   "theorems": [
    "FL.Own.delete_defined",
    "FL.Own.delete_exact",
    "FL.Own.delete_one_owner",
    "FL.Own.delete_root",
    "FL.Own.delete_all",
    "FL.Own.clean_iff_delete",
    "FL.Own.closed_survives",
    "FL.Own.variable_copy",
    "FL.Own.outputVariable_copy",
    "FL.Own.rule_copy",
    "FL.Own.ruleBlock_copy",
    "FL.Own.engine_copy_partial",
    "FL.Own.variable_assign",
    "FL.Own.outputVariable_assign",
    "FL.Own.rule_assign",
    "FL.Own.ruleBlock_assign",
    "FL.Own.engine_assign_partial",
    "FL.Own.assign_self",
    "FL.Own.antecedent_load_exact",
    "FL.Own.consequent_load",
    "FL.Own.rule_load_partial",
    "FL.Own.rule_unload",
    "FL.Own.ruleBlock_loadRules_partial",
    "FL.Own.add_owner",
    "FL.Own.insert_owner",
    "FL.Own.insert_undefined",
    "FL.Own.replace_owner",
    "FL.Own.remove_owner",
    "FL.Own.out_of_range",
    "FL.Own.reset_owner",
    "FL.Own.configure_owner",
    "FL.Own.conclusions_refer",
    "FL.Own.Demo.copy_leak_violated",
    "FL.Own.Demo.add_twice_violated",
    "FL.Own.Demo.configure_twice_violated",
    "FL.Own.Demo.reset_same_violated",
    "FL.Own.Demo.implication_dangles_violated",
    "FL.Own.Demo.copy_dangles_violated"
   ],
   "note": "In an explicit memory: deletion is defined exactly if every object has one owner; all copies, assignments, containers, setters and configure keep the memory clean, and loading loses exactly the lower half of the stack of expressions when Antecedent::load throws, nothing otherwise. Copies and assigned objects have the contents of the original: the same classes and texts in the same places, terms that refer to the copied engine, rules with the same text. A copy of an engine that was not used refers only to itself. Refuted: a rule that is not loaded leaks, also in every copy of its engine; objects given twice are deleted twice; a setter given the object it holds keeps a dangling pointer; activated terms dangle after the implication is replaced, and in the copy of a used engine after the original is deleted."
  },
  {
   "property": "C85",
   "status": "proved",
   "theorems": [
    "FL.Own.antecedent_load_value",
    "FL.Own.consequent_load_value",
    "FL.Own.rule_load_value",
    "FL.Own.ruleBlock_loadRules_value",
    "FL.Own.rule_value_unique",
    "FL.Own.engine_copy_rules",
    "FL.Own.engine_assign_rules",
    "FL.Own.engine_copy_same"
   ],
   "note": "The model of loading in memory refines the model of loading as values, for every text and engine: the same outcome, and the same expression, whose propositions refer to the variables and terms at the positions found by name. The value of a rule in memory is unique. Copies and assigned engines have the names of the original and its rules, referring to themselves. Assignments are for engines without references and other parts, which is how all engines are."
  },
  {
   "property": "C86",
   "status": "partial",
   "theorems": [
    "FL.Rounded.antecedent_near_partial",
    "FL.Rounded.rule_near_partial",
    "FL.Rounded.rule_double_partial",
    "FL.Rounded.tnorm_near",
    "FL.Rounded.snorm_near",
    "FL.Rounded.hedge_near",
    "FL.Rounded.ramp_near",
    "FL.Rounded.trapezoid_near_partial",
    "FL.Rounded.average_stable",
    "FL.Rounded.weighted_sound",
    "FL.Rounded.fuzzy_near_partial",
    "FL.Rounded.centroid_sound_partial",
    "FL.Rounded.accurate",
    "FL.Rounded.smooth_violated"
   ],
   "note": "With m propositions of up to n hedges each, terms whose degrees have errors up to d, the continuous norms (all but the drastic and nilpotent ones, HamacherSum and UnboundedSum) and the hedges any, extremely, not and very, the degree of a rule in double has an error of at most m (2^n d + (2^n - 1) 1e-11 + 1e-14) + 1e-15; HamacherProduct adds the tolerance per operator. Ramps, triangles and trapezoids have errors of at most the tolerance by their width and ten roundings, where the tolerance does not extend them. Degrees with errors up to E change a weighted average of n values up to M by at most 2 n E M / T; fuzzy outputs and Centroid likewise. Refuted for somewhat (and seldom), whose slope is infinite at 0, and for the norms that jump, which test for 1 with the tolerance."
  },
  {
   "property": "C87",
   "status": "partial",
   "theorems": [
    "FL.Rounded.sugeno_near_partial",
    "FL.Rounded.sugeno_process_partial",
    "FL.Rounded.sugeno_double_partial",
    "FL.RuleBlock.general_single",
    "FL.Rounded.sugeno_violated"
   ],
   "note": "Proved for engines with one block and one output without locked range, rules over inputs with one conclusion without hedges on a Constant, and the norms and hedges of C86.  The sum of the exact degrees has to exceed twice the total error; below the tolerance nothing is computed (sugeno_violated)."
  },
  {
   "property": "C88",
   "status": "partial",
   "theorems": [
    "FL.Rounded.output_near_partial",
    "FL.Rounded.mamdani_near_partial",
    "FL.Rounded.mamdani_process_partial",
    "FL.Rounded.mamdani_double_partial",
    "FL.Rounded.process_single",
    "FL.Rounded.mamdani_violated"
   ],
   "note": "Proved for engines with one block and one output, rules over inputs with one conclusion without hedges, the norms and hedges of C86 (implication and aggregation included), terms whose errors are known at the sampled points, and Centroid.  The sum of the exact degrees of the fuzzy output has to exceed twice the total error; below the tolerance nothing is computed (mamdani_violated).  The other integral defuzzifiers are not continuous or choose a point."
  },
  {
   "property": "C89",
   "status": "partial",
   "theorems": [
    "FL.Own.Function.parse_clean_partial",
    "FL.Own.Function.parse_same",
    "FL.Own.Function.tree_unique",
    "FL.Own.Function.tree_size",
    "FL.Own.Function.function_unload",
    "FL.Own.Function.function_load_partial",
    "FL.Own.Function.function_copy",
    "FL.Own.Function.function_assign",
    "FL.Own.Function.function_assign_self",
    "FL.Own.Function.visit_defined",
    "FL.Own.Function.load_dangling",
    "FL.Own.Function.leak_violated",
    "FL.Own.Function.dangling_violated",
    "FL.Own.Function.nullary_violated"
   ],
   "note": "Rejected formulas lose the nodes made for them (leak_violated; parse_clean_partial says how many and which); copies keep a reference to an engine that may be deleted (dangling_violated); an element without operands makes parsing undefined (nullary_violated).  The rest holds for registries whose elements have one or two operands."
  },
  {
   "property": "C90",
   "status": "proved",
   "theorems": [
    "FL.Engine.status_spec",
    "FL.Engine.status_empty",
    "FL.Engine.status_ready",
    "FL.Engine.status_configure",
    "FL.Engine.status_operator",
    "FL.Engine.textRequires_iff"
   ],
   "note": "Components are never null in the model."
  },
  {
   "property": "C91",
   "status": "partial",
   "theorems": [
    "FL.Aggregated.toString_reads_partial",
    "FL.Aggregated.toString_injective_partial",
    "FL.Activated.parameters_words",
    "FL.Aggregated.parameters_words_partial",
    "FL.FuzzyText.Demo.parenthesis_violated",
    "FL.FuzzyText.Demo.colon_violated",
    "FL.FuzzyText.Demo.unnamed_violated"
   ],
   "note": "Names of terms with a closing parenthesis (parenthesis_violated) and names of sets with a colon (colon_violated) make descriptions ambiguous; names without letters are not written in the parameters (unnamed_violated)."
  },
  {
   "property": "C92",
   "status": "partial",
   "theorems": [
    "FL.RuleBlock.activate_steady",
    "FL.RuleBlock.activateBy_reorder",
    "FL.RuleBlock.activate_reorder",
    "FL.Engine.blocks_perm",
    "FL.Engine.blocks_reorder",
    "FL.Engine.process_reordered_partial",
    "FL.Engine.values_reordered_partial",
    "FL.OutputVariable.unordered_maximum",
    "FL.OutputVariable.unordered_integral",
    "FL.OutputVariable.unordered_weighted",
    "FL.Activation.unordered_proportional",
    "FL.RuleOrder.first_violated",
    "FL.RuleOrder.highest_violated",
    "FL.RuleOrder.output_violated",
    "FL.RuleOrder.rounded_violated"
   ],
   "note": "The order decides which rules First and Last, and Highest and Lowest among rules of equal degrees, trigger (first_violated, highest_violated); antecedents about output variables read what the rules before them concluded (output_violated); sums in double precision depend on the order (rounded_violated)."
  },
  {
   "property": "C93",
   "status": "partial",
   "theorems": [
    "FL.Shape.membership_shift",
    "FL.Shape.tsukamoto_shift",
    "FL.Discrete.membership_shift",
    "FL.Integral.centroid_shift",
    "FL.Integral.defuzzify_shift",
    "FL.Weighted.average_shift",
    "FL.Defuzzifier.defuzzify_shift",
    "FL.OutputVariable.defuzzify_shift",
    "FL.Engine.process_shift_partial",
    "FL.Shift.sum_violated",
    "FL.Shift.linear_violated",
    "FL.Shift.rounded_violated"
   ],
   "note": "Weighted sums multiply the origin by the sum of the degrees (sum_violated); linear terms and formulas read the inputs as they are (linear_violated); in double precision places far from the origin cannot be told apart (rounded_violated)."
  },
  {
   "property": "C94",
   "status": "proved",
   "theorems": [
    "FL.Converge.centroid_converges",
    "FL.Converge.bisector_converges",
    "FL.Converge.membership_integrable",
    "FL.Converge.centroid_tendsto",
    "FL.Converge.bisector_tendsto",
    "FL.Converge.plateau_tendsto",
    "FL.Converge.peak_tendsto",
    "FL.Converge.tame_unit"
   ],
   "note": "In exact arithmetic. Shapes are those of Verif.Model.Shape (all parametric terms); the other norms, which jump or are undefined for degrees beyond one, are not covered."
  },
  {
   "property": "C95",
   "status": "partial",
   "theorems": [
    "FL.modifyLoop_split",
    "FL.RuleBlock.splits_effect",
    "FL.RuleBlock.activate_split_partial",
    "FL.Engine.blocks_split_partial",
    "FL.Engine.process_split_partial",
    "FL.SplitDemo.hedge_violated",
    "FL.SplitDemo.first_violated",
    "FL.SplitDemo.proportional_violated",
    "FL.SplitDemo.output_violated"
   ],
   "note": "Hedges in a conclusion also apply to the conclusions after it (hedge_violated), First and similar methods count rules (first_violated), Proportional divides by the sum of the degrees of the rules (proportional_violated), and antecedents about output variables read what the first rule adds (output_violated). Proved in every number format for General and Threshold with antecedents about input variables if only the last of the new rules has hedges in its conclusions; blocks with other methods may occur as long as their rules are left alone."
  },
  {
   "property": "C96",
   "status": "partial",
   "theorems": [
    "FL.Engine.process_alike",
    "FL.RuleBlock.activate_sameRules",
    "FL.Engine.blocks_sameRules",
    "FL.foldl_max_eq",
    "FL.Aggregated.membership_maximum",
    "FL.OutputVariable.sameWorth_maximum",
    "FL.Engine.process_sameRules_partial",
    "FL.Engine.process_settled_partial",
    "FL.OutputVariable.settled_maximal",
    "FL.Weighted.grouped_agree",
    "FL.Weighted.defuzzify_repeated",
    "FL.Weighted.defuzzify_set",
    "FL.OutputVariable.settled_weighted",
    "FL.RuleSetWeighted.order_violated",
    "FL.RuleSet.sum_violated",
    "FL.RuleSet.weighted_violated",
    "FL.RuleSet.method_violated"
   ],
   "note": "A repeated rule counts twice with sums as aggregation operators (sum_violated), for weighted defuzzifiers without aggregation operator (weighted_violated), and for First and Proportional also with Maximum (method_violated). Proved in every number format for General and Threshold with Maximum, defuzzifiers that integrate and antecedents about input variables; with Maximum and weighted defuzzifiers in exact arithmetic (settled_weighted), and in every number format if terms are only repeated after the first time (defuzzify_repeated); in double precision their order matters (order_violated)."
  },
  {
   "property": "C97",
   "status": "partial",
   "theorems": [
    "FL.modifyLoop_template",
    "FL.RuleBlock.either_effect",
    "FL.RuleBlock.activate_either",
    "FL.Engine.blocks_either",
    "FL.opMax_min",
    "FL.Engine.process_either_partial",
    "FL.joins_real",
    "FL.joins_rounded",
    "FL.EitherDemo.operator_violated",
    "FL.EitherDemo.nan_violated",
    "FL.EitherDemo.not_violated"
   ],
   "note": "Other operators count both rules (operator_violated), an unknown value blocks the disjunction only (nan_violated), and the hedge not in a conclusion reverses the order of the degrees (not_violated). Proved in every number format for Maximum as disjunction and aggregation, Minimum as implication, General, defuzzifiers that integrate, antecedents about input variables and conclusions without hedges, if the weight and the degrees join: this is shown for weights that are not negative and finite degrees in exact arithmetic, and for weights and degrees from 0 to 1 in every rounded format."
  },
  {
   "property": "C98",
   "status": "partial",
   "theorems": [
    "FL.Rule.trigger_idle",
    "FL.RuleBlock.selectStep_idle",
    "FL.RuleBlock.ordered_drops",
    "FL.RuleBlock.activate_idle_partial",
    "FL.Engine.process_idle_partial",
    "FL.RuleBlock.proportional_idle_partial",
    "FL.RuleBlock.proportional_real_partial",
    "FL.IdleRules.proportional_violated"
   ],
   "note": "Proportional adds up the degrees of all rules: one that is NaN is not greater than zero, yet it silences the other rules of the block (proportional_violated). Proved for all other methods in every number format, for all engines including antecedents about output variables, with equality of the output variables and their fuzzy outputs; for Proportional, in exact arithmetic, one block, for rules whose degree is equal to zero."
  },
  {
   "property": "C99",
   "status": "partial",
   "theorems": [
    "FL.Engine.activateBlocks_tuned",
    "FL.Engine.process_tuned_earlier",
    "FL.Engine.process_tuned_partial",
    "FL.TuneDemo.formula_violated",
    "FL.TuneDemo.exception_violated"
   ],
   "note": "A formula can mention another output variable (formula_violated), and an exception in defuzzifying one leaves those after it as they were (exception_violated). Rules and the output variables before the one that is changed are covered for all engines in every number format (activateBlocks_tuned, process_tuned_earlier); those after it if no exception is raised and no formula mentions an output variable."
  },
  {
   "property": "C100",
   "status": "partial",
   "theorems": [
    "FL.Engine.process_rename_partial",
    "FL.Engine.values_rename_partial",
    "FL.Aggregated.rename_grouped",
    "FL.RenameDemo.merged_violated",
    "FL.RenameDemo.formula_violated",
    "FL.RenameDemo.capture_violated"
   ],
   "note": "Weighted defuzzifiers merge terms of equal names (merged_violated), formulas look variables up by name (formula_violated) and a new name can hide a variable of a formula (capture_violated). Proved in every number format, with equality of the whole engine and of the exception, if different terms of a variable keep different names and no formula mentions a variable of the engine by its old or new name."
  },
  {
   "property": "C101",
   "status": "partial",
   "theorems": [
    "FL.Engine.process_reweigh_partial",
    "FL.Engine.process_reweigh_real",
    "FL.RuleBlock.proportional_reweigh",
    "FL.RuleBlock.degrees_reweigh_real",
    "FL.scales_real",
    "FL.RelativeDemo.rounded_violated"
   ],
   "note": "Proved in exact arithmetic for all positive factors and all engines, and in every number format for factors that keep products, sums and ratios; in double precision degrees may differ in their last bits (rounded_violated)."
  },
  {
   "property": "C102",
   "status": "partial",
   "theorems": [
    "FL.Engine.process_between_partial",
    "FL.Engine.process_activated_partial",
    "FL.Engine.activateBlocks_degrees",
    "FL.Engine.activateBlocks_positive",
    "FL.Weighted.average_between",
    "FL.RuleBlock.activateBy_active",
    "FL.unboundedSum_positive",
    "FL.maximum_positive",
    "FL.hedges_positive",
    "FL.BetweenDemo.hedge_violated",
    "FL.BetweenDemo.rounded_violated"
   ],
   "note": "In double precision the average of nothing but 3 can be greater than 3 (rounded_violated), and the hedge not in a conclusion makes degrees above one negative (hedge_violated). Proved in exact arithmetic for all engines without hedges in conclusions other than those that keep degrees greater than zero (any, somewhat, very), all activation methods and weights, for variables without locked range and previous value; aggregation: none, or any operator that keeps degrees greater than zero, such as UnboundedSum and Maximum. That activated degrees are greater than zero is proved in every number format."
  },
  {
   "property": "C103",
   "status": "partial",
   "theorems": [
    "FL.Integral.defuzzify_support_partial",
    "FL.Engine.process_support_partial",
    "FL.Engine.activateBlocks_implied",
    "FL.Aggregated.membership_supported",
    "FL.shape_supported",
    "FL.minimum_supports",
    "FL.maximum_supports",
    "FL.unboundedSum_supports",
    "FL.SupportDemo.bisector_violated",
    "FL.SupportDemo.unsampled_violated"
   ],
   "note": "Bisector returns the middle of the range if a single sampled point has positive membership (bisector_violated), and the maximum-based defuzzifiers return points outside of the support if none has (unsampled_violated). Proved in exact arithmetic for all integral defuzzifiers with one such point, two for Bisector; on engines for all activation methods, antecedents, weights and inputs, with hedges in conclusions that keep degrees greater than zero and operators that give no membership where there was none (Minimum as implication; Maximum and UnboundedSum as aggregation), variables without locked range."
  },
  {
   "property": "C104",
   "status": "proved",
   "theorems": [
    "FL.RuleBlock.activate_more",
    "FL.RuleBlock.first_general",
    "FL.RuleBlock.threshold_general",
    "FL.RuleBlock.select_more",
    "FL.RuleBlock.ordered_more",
    "FL.RuleBlock.select_general"
   ],
   "note": "In every number format and with all exceptions, for one rule block. The order of equal degrees under Highest and Lowest is whatever the queue gives, the same for both numbers."
  },
  {
   "property": "C105",
   "status": "partial",
   "theorems": [
    "FL.Engine.process_divide_partial",
    "FL.Engine.process_permuted_partial",
    "FL.Engine.blocks_divide",
    "FL.RuleBlock.rules_divide",
    "FL.Comparison.complementary",
    "FL.DivideDemo.nan_violated",
    "FL.DivideDemo.equal_violated",
    "FL.DivideDemo.output_violated"
   ],
   "note": "Violated by the threshold NaN (nan_violated) and by antecedents about output variables (output_violated); < with > and <= with >= are not complementary (equal_violated). Proved in every number format, doubles included, for rules about input variables; the values are the same if they do not depend on the order of the activated terms (Unordered, as for C92)."
  },
  {
   "property": "C106",
   "status": "partial",
   "theorems": [
    "FL.Engine.process_enough_partial",
    "FL.Engine.blocks_replace",
    "FL.RuleBlock.enough_general",
    "FL.RuleBlock.enough_zero",
    "FL.RuleBlock.triggerAll_adds",
    "FL.EnoughDemo.output_violated",
    "FL.EnoughDemo.proportional_violated"
   ],
   "note": "Violated by antecedents about output variables (output_violated) and, as expected, by Proportional (proportional_violated). Proved in every number format, doubles included, for rules about input variables and any lawful priority queue; the values are the same if they do not depend on the order of the activated terms (Unordered, as for C92)."
  },
  {
   "property": "C107",
   "status": "partial",
   "theorems": [
    "FL.Engine.process_mute_partial",
    "FL.Engine.blocks_mute",
    "FL.RuleBlock.activate_mute",
    "FL.Rule.mute_real",
    "FL.Rule.mute_rounded",
    "FL.MuteDemo.proportional_violated",
    "FL.MuteDemo.exception_violated"
   ],
   "note": "Violated by Proportional and weights NaN (proportional_violated), and if the deleted rule raises an exception (exception_violated). Proved for all inputs, exact and rounded, if processing with the rules raises no exception."
  },
  {
   "property": "C108",
   "status": "partial",
   "theorems": [
    "FL.Engine.process_extend_partial",
    "FL.Engine.activateBlocks_sees",
    "FL.Engine.defuzzifyAll_extend",
    "FL.World.sees_extend",
    "FL.Term.closed_of_kind",
    "FL.ExtraDemo.linear_violated",
    "FL.ExtraDemo.formula_violated",
    "FL.Rule.load_extend",
    "FL.loadRules_extend",
    "FL.ExtraDemo.exception_violated",
    "FL.ExtraDemo.capture_violated",
    "FL.ExtraLoadDemo.names_violated"
   ],
   "note": "Violated by Linear terms, whose constant becomes the coefficient of an added input variable (linear_violated), by formulas with a variable of their own of the same name (formula_violated), by added output variables that cannot be defuzzified (exception_violated, only as an exception), and, if rules are loaded again, by added input variables with the name of an output variable (capture_violated) and added variables called and or or (names_violated); otherwise rules are loaded as before (Rule.load_extend). Proved in every number format for engines whose terms do not read variables and that are processed without an exception before."
  },
  {
   "property": "C109",
   "status": "proved",
   "theorems": [
    "FL.Engine.process_addTerms",
    "FL.Rule.load_addTerms",
    "FL.loadRules_addTerms",
    "FL.World.sees_addTerms",
    "FL.Antecedent.load_grows",
    "FL.Consequent.load_grows",
    "FL.World.grows_addTerms"
   ],
   "note": "Proved in every number format, for engines that are processed, and rules that are loaded, without an exception before. Added terms are the same for variables of the same name. Terms are appended; inserting them before others (Variable::insertTerm) is not considered."
  }
 ]
}