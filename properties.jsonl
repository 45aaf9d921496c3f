{"id": "C01", "title": "Tolerant comparisons form a coherent trichotomy", "statement": "For any two scalars a, b and any positive tolerance: at most one of Op::isLt(a,b), Op::isEq(a,b), Op::isGt(a,b) is true; exactly one is true unless exactly one of a, b is NaN, in which case none is. Op::isLE is isLt-or-isEq, Op::isGE is isGt-or-isEq, isEq is reflexive (NaN and infinities included) and symmetric, isGt(a,b)=isLt(b,a). isEq is NOT transitive.", "quantifier": "all pairs of scalars including NaN and both infinities, all tolerances > 0", "why_tests_cant": "ranges over all scalar pairs, including pairs at every distance from the tolerance boundary; tests sample a few", "anchors": ["fuzzylite/Operation.h: Operation::isEq/isLt/isLE/isGt/isGE"]}
{"id": "C02", "title": "Scalar min/max are NaN-propagating lattice operations and bound clamps", "statement": "Op::min and Op::max return NaN iff one argument is NaN; otherwise they are commutative, associative, idempotent, absorptive and return one of their arguments. Op::bound(x,lo,hi) with lo<=hi returns a value in [lo,hi] for every non-NaN x, leaves values already in range unchanged, is idempotent and monotone in x, and returns NaN for NaN x.", "quantifier": "all scalars including NaN and infinities", "why_tests_cant": "algebraic laws over triples of scalars", "anchors": ["fuzzylite/Operation.h: Operation::min, max, bound"]}
{"id": "C03", "title": "Grid enumeration visits every combination exactly once", "statement": "Starting from the vector of minima, repeatedly calling Op::increment(x,min,max) until it returns false visits every integer vector with min<=x<=max exactly once, in lexicographic order with the last position fastest, and terminates; the last call resets the vector to the minima.", "quantifier": "all vectors of bounds of any length with min<=max componentwise", "why_tests_cant": "termination and exact coverage for every dimension and every bound is an inductive claim", "anchors": ["fuzzylite/Operation.h: Operation::increment", "src/imex/FldExporter.cpp: FldExporter::write", "src/Benchmark.cpp: Benchmark::prepare"]}
{"id": "C04", "title": "String splitting and joining are inverse, trimming is idempotent", "statement": "For a non-empty delimiter, joining with that delimiter the pieces returned by Op::split(text, delimiter, ignoreEmpty=false) gives back the text, no piece contains the delimiter when it is a single character, and ignoreEmpty=true returns exactly the non-empty pieces in order (for non-empty text). Splitting the join of non-empty pieces free of the delimiter returns those pieces. Op::trim(text) has no leading/trailing blank, differs from text only by removing blanks at the ends, and is idempotent.", "quantifier": "all strings and delimiters", "why_tests_cant": "ranges over all strings", "anchors": ["fuzzylite/Operation.h: Operation::split, join, trim"]}
{"id": "C05", "title": "Sanitised names are valid identifiers", "statement": "Op::validName(name) always returns a non-empty string made only of letters, digits, underscore and dot, never fails, and is idempotent.", "quantifier": "all strings", "why_tests_cant": "ranges over all strings; the failing inputs are names made only of symbols", "anchors": ["fuzzylite/Operation.h: Operation::validName"]}
{"id": "C06", "title": "Every T-Norm maps truth degrees to truth degrees and is commutative", "statement": "For every built-in T-Norm and all a, b in [0,1]: compute(a,b) is a finite number in [0, min(a,b)], and compute(a,b)=compute(b,a).", "quantifier": "all built-in T-Norms, all a, b in [0,1]", "why_tests_cant": "continuum of argument pairs", "anchors": ["src/norm/t/AlgebraicProduct.cpp: AlgebraicProduct::compute", "src/norm/t/BoundedDifference.cpp: BoundedDifference::compute", "src/norm/t/DrasticProduct.cpp: DrasticProduct::compute", "src/norm/t/EinsteinProduct.cpp: EinsteinProduct::compute", "src/norm/t/HamacherProduct.cpp: HamacherProduct::compute", "src/norm/t/Minimum.cpp: Minimum::compute", "src/norm/t/NilpotentMinimum.cpp: NilpotentMinimum::compute"]}
{"id": "C07", "title": "Every T-Norm has 1 as identity and 0 as annihilator", "statement": "For every built-in T-Norm and all a in [0,1]: compute(a,1)=a and compute(a,0)=0.", "quantifier": "all built-in T-Norms, all a in [0,1]", "why_tests_cant": "continuum of arguments; the tolerance branches misbehave only within 1e-6 of a boundary", "anchors": ["src/norm/t/AlgebraicProduct.cpp: AlgebraicProduct::compute", "src/norm/t/BoundedDifference.cpp: BoundedDifference::compute", "src/norm/t/DrasticProduct.cpp: DrasticProduct::compute", "src/norm/t/EinsteinProduct.cpp: EinsteinProduct::compute", "src/norm/t/HamacherProduct.cpp: HamacherProduct::compute", "src/norm/t/Minimum.cpp: Minimum::compute", "src/norm/t/NilpotentMinimum.cpp: NilpotentMinimum::compute"]}
{"id": "C08", "title": "T-Norms are monotone and associative", "statement": "For every built-in T-Norm and all a<=b, c in [0,1]: compute(a,c)<=compute(b,c); and compute(compute(a,b),c)=compute(a,compute(b,c)).", "quantifier": "all built-in T-Norms, all triples in [0,1]", "why_tests_cant": "continuum of triples; violations of the tolerance-based norms live in bands of width 1e-6", "anchors": ["src/norm/t/AlgebraicProduct.cpp: AlgebraicProduct::compute", "src/norm/t/BoundedDifference.cpp: BoundedDifference::compute", "src/norm/t/DrasticProduct.cpp: DrasticProduct::compute", "src/norm/t/EinsteinProduct.cpp: EinsteinProduct::compute", "src/norm/t/HamacherProduct.cpp: HamacherProduct::compute", "src/norm/t/Minimum.cpp: Minimum::compute", "src/norm/t/NilpotentMinimum.cpp: NilpotentMinimum::compute"]}
{"id": "C09", "title": "Every S-Norm maps truth degrees to truth degrees and is commutative", "statement": "For every built-in S-Norm except UnboundedSum and all a, b in [0,1]: compute(a,b) is a finite number in [max(a,b),1] and compute(a,b)=compute(b,a). UnboundedSum is commutative, at least max(a,b), and exceeds 1 exactly when a+b>1.", "quantifier": "all built-in S-Norms, all a, b in [0,1]", "why_tests_cant": "continuum of argument pairs", "anchors": ["src/norm/s/AlgebraicSum.cpp: AlgebraicSum::compute", "src/norm/s/BoundedSum.cpp: BoundedSum::compute", "src/norm/s/DrasticSum.cpp: DrasticSum::compute", "src/norm/s/EinsteinSum.cpp: EinsteinSum::compute", "src/norm/s/HamacherSum.cpp: HamacherSum::compute", "src/norm/s/Maximum.cpp: Maximum::compute", "src/norm/s/NilpotentMaximum.cpp: NilpotentMaximum::compute", "src/norm/s/NormalizedSum.cpp: NormalizedSum::compute", "src/norm/s/UnboundedSum.cpp: UnboundedSum::compute"]}
{"id": "C10", "title": "Every S-Norm has 0 as identity and 1 as annihilator", "statement": "For every built-in S-Norm (UnboundedSum excepted for the annihilator) and all a in [0,1]: compute(a,0)=a and compute(a,1)=1.", "quantifier": "all built-in S-Norms, all a in [0,1]", "why_tests_cant": "continuum of arguments", "anchors": ["src/norm/s/AlgebraicSum.cpp: AlgebraicSum::compute", "src/norm/s/BoundedSum.cpp: BoundedSum::compute", "src/norm/s/DrasticSum.cpp: DrasticSum::compute", "src/norm/s/EinsteinSum.cpp: EinsteinSum::compute", "src/norm/s/HamacherSum.cpp: HamacherSum::compute", "src/norm/s/Maximum.cpp: Maximum::compute", "src/norm/s/NilpotentMaximum.cpp: NilpotentMaximum::compute", "src/norm/s/NormalizedSum.cpp: NormalizedSum::compute", "src/norm/s/UnboundedSum.cpp: UnboundedSum::compute"]}
{"id": "C11", "title": "S-Norms are monotone and associative", "statement": "For every built-in S-Norm and all a<=b, c in [0,1]: compute(a,c)<=compute(b,c); and compute(compute(a,b),c)=compute(a,compute(b,c)).", "quantifier": "all built-in S-Norms, all triples in [0,1]", "why_tests_cant": "continuum of triples", "anchors": ["src/norm/s/AlgebraicSum.cpp: AlgebraicSum::compute", "src/norm/s/BoundedSum.cpp: BoundedSum::compute", "src/norm/s/DrasticSum.cpp: DrasticSum::compute", "src/norm/s/EinsteinSum.cpp: EinsteinSum::compute", "src/norm/s/HamacherSum.cpp: HamacherSum::compute", "src/norm/s/Maximum.cpp: Maximum::compute", "src/norm/s/NilpotentMaximum.cpp: NilpotentMaximum::compute", "src/norm/s/NormalizedSum.cpp: NormalizedSum::compute", "src/norm/s/UnboundedSum.cpp: UnboundedSum::compute"]}
{"id": "C12", "title": "S-Norms are the De Morgan duals of the T-Norms of the same family", "statement": "For each family F (algebraic, bounded, drastic, einstein, hamacher, min/max, nilpotent) and all a, b in [0,1]: S(a,b) = 1 - T(1-a, 1-b).", "quantifier": "seven families, all a, b in [0,1]", "why_tests_cant": "continuum of argument pairs; the Hamacher pair uses different tolerance tests on each side", "anchors": ["src/norm/t/AlgebraicProduct.cpp: AlgebraicProduct::compute", "src/norm/t/BoundedDifference.cpp: BoundedDifference::compute", "src/norm/t/DrasticProduct.cpp: DrasticProduct::compute", "src/norm/t/EinsteinProduct.cpp: EinsteinProduct::compute", "src/norm/t/HamacherProduct.cpp: HamacherProduct::compute", "src/norm/t/Minimum.cpp: Minimum::compute", "src/norm/t/NilpotentMinimum.cpp: NilpotentMinimum::compute", "src/norm/s/AlgebraicSum.cpp: AlgebraicSum::compute", "src/norm/s/BoundedSum.cpp: BoundedSum::compute", "src/norm/s/DrasticSum.cpp: DrasticSum::compute", "src/norm/s/EinsteinSum.cpp: EinsteinSum::compute", "src/norm/s/HamacherSum.cpp: HamacherSum::compute", "src/norm/s/Maximum.cpp: Maximum::compute", "src/norm/s/NilpotentMaximum.cpp: NilpotentMaximum::compute", "src/norm/s/NormalizedSum.cpp: NormalizedSum::compute", "src/norm/s/UnboundedSum.cpp: UnboundedSum::compute"]}
{"id": "C13", "title": "Hedges map truth degrees to truth degrees, keep crisp values and order", "statement": "For every built-in hedge and all x in [0,1]: hedge(x) is in [0,1]; very, extremely, somewhat, seldom fix 0 and 1; not swaps them; any is constantly 1; very, extremely, somewhat, seldom are non-decreasing and not is non-increasing; very(x)<=x<=somewhat(x); not(not x)=x; very(somewhat x)=x; extremely(seldom x)=x.", "quantifier": "all built-in hedges, all x in [0,1]", "why_tests_cant": "continuum of arguments; monotonicity breaks only within 1e-6 of 0.5", "anchors": ["src/hedge/Any.cpp: Any::hedge", "src/hedge/Extremely.cpp: Extremely::hedge", "src/hedge/Not.cpp: Not::hedge", "src/hedge/Seldom.cpp: Seldom::hedge", "src/hedge/Somewhat.cpp: Somewhat::hedge", "src/hedge/Very.cpp: Very::hedge"]}
{"id": "C14", "title": "Membership degrees never leave [0, height]", "statement": "For every built-in membership-function term with well-formed finite parameters and height h>=0, and every finite or infinite x: membership(x) is a number in [0,h] (never NaN, negative or above the height).", "quantifier": "all membership-function term classes, all well-formed parameters, all heights, all x", "why_tests_cant": "continuum of parameters and inputs; violations hide within 1e-6 of a vertex", "anchors": ["src/term/Bell.cpp: Bell::membership", "src/term/Binary.cpp: Binary::membership", "src/term/Concave.cpp: Concave::membership", "src/term/Cosine.cpp: Cosine::membership", "src/term/Gaussian.cpp: Gaussian::membership", "src/term/GaussianProduct.cpp: GaussianProduct::membership", "src/term/PiShape.cpp: PiShape::membership", "src/term/Ramp.cpp: Ramp::membership", "src/term/Rectangle.cpp: Rectangle::membership", "src/term/Sigmoid.cpp: Sigmoid::membership", "src/term/SigmoidDifference.cpp: SigmoidDifference::membership", "src/term/SigmoidProduct.cpp: SigmoidProduct::membership", "src/term/Spike.cpp: Spike::membership", "src/term/SShape.cpp: SShape::membership", "src/term/Trapezoid.cpp: Trapezoid::membership", "src/term/Triangle.cpp: Triangle::membership", "src/term/ZShape.cpp: ZShape::membership"]}
{"id": "C15", "title": "NaN inputs yield NaN membership and activate nothing", "statement": "For every membership-function term, membership(NaN)=NaN. A proposition over an input whose value is NaN therefore evaluates to NaN (no hedges) and a rule whose activation degree is NaN is never triggered by any activation method.", "quantifier": "all terms, all rules, all activation methods", "why_tests_cant": "all term classes, parameters and rule shapes", "anchors": ["src/term/Bell.cpp: Bell::membership", "src/term/Binary.cpp: Binary::membership", "src/term/Concave.cpp: Concave::membership", "src/term/Cosine.cpp: Cosine::membership", "src/term/Gaussian.cpp: Gaussian::membership", "src/term/GaussianProduct.cpp: GaussianProduct::membership", "src/term/PiShape.cpp: PiShape::membership", "src/term/Ramp.cpp: Ramp::membership", "src/term/Rectangle.cpp: Rectangle::membership", "src/term/Sigmoid.cpp: Sigmoid::membership", "src/term/SigmoidDifference.cpp: SigmoidDifference::membership", "src/term/SigmoidProduct.cpp: SigmoidProduct::membership", "src/term/Spike.cpp: Spike::membership", "src/term/SShape.cpp: SShape::membership", "src/term/Trapezoid.cpp: Trapezoid::membership", "src/term/Triangle.cpp: Triangle::membership", "src/term/ZShape.cpp: ZShape::membership", "src/rule/Rule.cpp: Rule::trigger", "src/activation/*.cpp: activate"]}
{"id": "C16", "title": "Terms reach their height on the core and vanish outside the support", "statement": "Triangle, Trapezoid, Rectangle, Ramp, SShape, ZShape, PiShape, Binary, Cosine and Concave evaluate to exactly the height on their core (vertex, plateau or saturated side) and to exactly 0 outside their support (farther than the comparison tolerance); Gaussian, Bell and Spike reach the height exactly at the centre and are symmetric about it.", "quantifier": "all parameters, all x", "why_tests_cant": "continuum of parameters and inputs", "anchors": ["src/term/Bell.cpp: Bell::membership", "src/term/Binary.cpp: Binary::membership", "src/term/Concave.cpp: Concave::membership", "src/term/Cosine.cpp: Cosine::membership", "src/term/Gaussian.cpp: Gaussian::membership", "src/term/GaussianProduct.cpp: GaussianProduct::membership", "src/term/PiShape.cpp: PiShape::membership", "src/term/Ramp.cpp: Ramp::membership", "src/term/Rectangle.cpp: Rectangle::membership", "src/term/Sigmoid.cpp: Sigmoid::membership", "src/term/SigmoidDifference.cpp: SigmoidDifference::membership", "src/term/SigmoidProduct.cpp: SigmoidProduct::membership", "src/term/Spike.cpp: Spike::membership", "src/term/SShape.cpp: SShape::membership", "src/term/Trapezoid.cpp: Trapezoid::membership", "src/term/Triangle.cpp: Triangle::membership", "src/term/ZShape.cpp: ZShape::membership"]}
{"id": "C17", "title": "Monotonic terms are monotone", "statement": "Every term whose isMonotonic() is true (Concave, Ramp, Sigmoid, SShape, ZShape) is non-decreasing or non-increasing over all x, in the direction given by its parameters.", "quantifier": "all parameters and all pairs x<=y", "why_tests_cant": "continuum of pairs; SShape/ZShape break monotonicity only within 1e-6 of the midpoint", "anchors": ["src/term/Concave.cpp: membership, isMonotonic", "src/term/Ramp.cpp: membership, isMonotonic", "src/term/Sigmoid.cpp: membership, isMonotonic", "src/term/SShape.cpp: membership, isMonotonic", "src/term/ZShape.cpp: membership, isMonotonic"]}
{"id": "C18", "title": "Tsukamoto inverts the membership function of monotonic terms", "statement": "For every monotonic term with height h and 0<y<h: membership(tsukamoto(y)) = y, and tsukamoto(membership(x)) = x wherever the membership is strictly between 0 and h.", "quantifier": "all monotonic terms and parameters, all y", "why_tests_cant": "continuum of parameters and degrees", "anchors": ["src/term/Concave.cpp: tsukamoto, membership", "src/term/Ramp.cpp: tsukamoto, membership", "src/term/Sigmoid.cpp: tsukamoto, membership", "src/term/SShape.cpp: tsukamoto, membership", "src/term/ZShape.cpp: tsukamoto, membership"]}
{"id": "C19", "title": "Discrete terms interpolate their points", "statement": "For a Discrete term with strictly increasing x-coordinates: membership at a listed x is height times its y; between listed points it is the linear interpolation, hence lies between the neighbouring degrees; outside the range it is the first/last degree; so the result always lies between the least and greatest listed degree times height. toPairs(toVector(pairs))=pairs and toVector(toPairs(v))=v for even-length v; odd length is rejected.", "quantifier": "all point lists, all x, all vectors", "why_tests_cant": "all lists of any length and a continuum of x", "anchors": ["src/term/Discrete.cpp: membership, toPairs, toVector"]}
{"id": "C20", "title": "Aggregated fuzzy sets are order-insensitive, bounded and monotone", "statement": "For an aggregated fuzzy output with an aggregation operator: membership(x) is in [0,1] when the activated terms' memberships are and the operator is a bounded S-Norm; it is at least every activated term's membership; it does not depend on the order in which terms were added when the operator is commutative and associative; adding a term never lowers it; an empty set has membership 0.", "quantifier": "all lists of activated terms, all x, all S-Norms", "why_tests_cant": "all finite lists and all permutations", "anchors": ["src/term/Aggregated.cpp: membership, addTerm", "src/term/Activated.cpp: membership"]}
{"id": "C21", "title": "Grouping activated terms preserves each term's total activation", "statement": "Aggregated::grouped() contains each term name at most once, in order of first occurrence, and the degree recorded for a term is the aggregation (or the sum when there is no operator) of the degrees of all activated terms of that name; grouping is idempotent and, when names identify terms, agrees with activationDegree(term).", "quantifier": "all lists of activated terms", "why_tests_cant": "all finite lists with arbitrary repetition patterns", "anchors": ["src/term/Aggregated.cpp: grouped, activationDegree"]}
{"id": "C22", "title": "Removing an activated term returns that term", "statement": "Aggregated::removeTerm(i) returns the term that was at position i and leaves all other terms in their order.", "quantifier": "all aggregated sets and valid positions", "why_tests_cant": "depends on position and on memory lifetime; the last position reads freed storage", "anchors": ["src/term/Aggregated.cpp: removeTerm"]}
{"id": "C23", "title": "Formulas parse according to precedence and associativity", "statement": "For every expression tree built from numbers, variables, the registered operators and functions: writing it as an infix formula with parentheses only where precedence/associativity require them and loading it yields exactly that tree; in particular redundant parentheses never change the result, operators of equal precedence associate to the declared side, and loading is deterministic.", "quantifier": "all expression trees of any depth and shape", "why_tests_cant": "unbounded nesting of operators", "anchors": ["src/term/Function.cpp: Function::toPostfix, Function::parse", "src/factory/FunctionFactory.cpp: registerOperators"]}
{"id": "C24", "title": "Formulas evaluate compositionally or fail explicitly", "statement": "Evaluating a loaded formula either returns the mathematical value of the tree under the variable assignment, or throws because a variable is missing; it depends only on the variables that occur in the formula; malformed formulas (unbalanced parentheses, missing operands, surplus operands) are rejected at load time and never produce a tree.", "quantifier": "all formulas and variable assignments", "why_tests_cant": "all token sequences", "anchors": ["src/term/Function.cpp: Function::Node::evaluate, Function::toPostfix, Function::parse, Function::membership"]}
{"id": "C25", "title": "Infix rendering of a formula tree is faithful", "statement": "Rendering a loaded formula with Node::toInfix and loading the rendered text yields an equivalent formula; Node::toPostfix renders the exact sequence consumed by the parser.", "quantifier": "all expression trees", "why_tests_cant": "all trees; unfaithful trees need a lower-precedence operator nested below a higher one", "anchors": ["src/term/Function.cpp: Node::toInfix, Node::toPostfix"]}
{"id": "C26", "title": "Rule antecedents parse with 'and' above 'or', left-associative, parentheses respected", "statement": "For every antecedent tree of propositions over the engine's variables, hedges and terms: the text written with the necessary parentheses loads into exactly that tree.", "quantifier": "all antecedent trees, all engines", "why_tests_cant": "unbounded nesting and arbitrary hedge chains", "anchors": ["src/rule/Antecedent.cpp: Antecedent::load", "src/term/Function.cpp: Function::toPostfix"]}
{"id": "C27", "title": "Antecedent degrees are truth degrees computed recursively", "statement": "The activation degree of a loaded antecedent is in [0,1] whenever memberships are, and equals the recursive evaluation: a proposition gives the term membership transformed by its hedges from the innermost (nearest the term) outwards, a disabled variable gives 0, 'and'/'or' combine both sides with the conjunction/disjunction; an absent norm that is needed raises an exception rather than a wrong value.", "quantifier": "all antecedent trees, engines and input values", "why_tests_cant": "unbounded trees and a continuum of inputs", "anchors": ["src/rule/Antecedent.cpp: Antecedent::activationDegree"]}
{"id": "C28", "title": "Each conclusion of a rule is activated with the rule's degree and its own hedges only", "statement": "When a rule is triggered, for every conclusion on an enabled output variable exactly one activated term is appended to that variable's fuzzy output, whose degree is the rule's activation degree transformed by the hedges of that conclusion only; disabled variables receive nothing; nothing else changes.", "quantifier": "all consequents, degrees and hedge chains", "why_tests_cant": "unbounded conclusion lists; the violation needs a hedge in an earlier conclusion", "anchors": ["src/rule/Consequent.cpp: Consequent::modify"]}
{"id": "C29", "title": "Rule texts load exactly when they follow the grammar", "statement": "A rule loads iff its text, after removing a trailing # comment, is 'if' antecedent 'then' consequent ['with' weight] with a well-formed antecedent and consequent; a failed load throws and leaves the rule unloaded; a successful load yields weight 1.0 when no weight is given and the given number otherwise.", "quantifier": "all token sequences and all engines", "why_tests_cant": "all texts", "anchors": ["src/rule/Rule.cpp: Rule::load", "src/rule/Consequent.cpp: Consequent::load"]}
{"id": "C30", "title": "Loading a rule block loads every loadable rule", "statement": "RuleBlock::loadRules attempts every rule, ends with exactly the loadable ones loaded irrespective of the others' failures or the order, and throws iff at least one failed, mentioning every failure.", "quantifier": "all rule lists", "why_tests_cant": "all lists with arbitrary failure patterns", "anchors": ["src/rule/RuleBlock.cpp: loadRules, reloadRules, unloadRules"]}
{"id": "C31", "title": "General activation triggers exactly the enabled rules with positive degree", "statement": "With General activation (the default), a loaded rule is triggered iff it is enabled and its weighted degree is positive (beyond tolerance); its recorded degree is weight times antecedent degree; unloaded rules are skipped; and conclusions are appended in rule order.", "quantifier": "all rule blocks and input values", "why_tests_cant": "all rule lists", "anchors": ["src/activation/General.cpp: activate", "src/rule/Rule.cpp: activateWith, trigger"]}
{"id": "C32", "title": "First/Last activation trigger at most n rules, the earliest/latest qualifying ones", "statement": "First (Last) with n rules and threshold t triggers exactly the first (last) n enabled rules, in rule order (reverse order), whose degree is positive and at least t.", "quantifier": "all rule blocks, n and t", "why_tests_cant": "all lists and enable patterns; the violation needs a disabled rule that qualifies", "anchors": ["src/activation/First.cpp: activate", "src/activation/Last.cpp: activate"]}
{"id": "C33", "title": "Highest/Lowest activation trigger the n most/least active rules", "statement": "Highest (Lowest) with n rules triggers min(n, number of enabled rules with positive degree) rules and no enabled rule left out has a strictly higher (lower) positive degree than a triggered one.", "quantifier": "all rule blocks and n", "why_tests_cant": "all lists of degrees, ties and enable patterns", "anchors": ["src/activation/Highest.cpp: activate", "src/activation/Lowest.cpp: activate"]}
{"id": "C34", "title": "Proportional activation yields degrees that sum to one", "statement": "After Proportional activation the degrees of the rules with positive activation are their original degrees divided by the total, each lies in [0,1], they keep their ratios and they sum to 1 whenever some rule has a positive degree.", "quantifier": "all rule blocks", "why_tests_cant": "all lists of degrees", "anchors": ["src/activation/Proportional.cpp: activate"]}
{"id": "C35", "title": "Threshold activation triggers exactly the rules that satisfy the comparison", "statement": "With Threshold(op, t) an enabled loaded rule is triggered iff its degree is positive and 'degree op t' holds; the six comparison operators partition as < / == / > and != is the negation of ==; operator names survive parsing and printing.", "quantifier": "all rule blocks, operators and thresholds", "why_tests_cant": "all lists and thresholds", "anchors": ["src/activation/Threshold.cpp: activate, activatesWith, parseComparison"]}
{"id": "C36", "title": "Integral defuzzifiers return a value inside the range", "statement": "For a fuzzy set with non-negative finite membership and a finite range [min,max] with min<max and resolution>=1: Centroid, Bisector, SmallestOfMaximum, LargestOfMaximum and MeanOfMaximum return either NaN (only if no sampled membership is positive) or a value strictly inside (min,max).", "quantifier": "all fuzzy sets, ranges and resolutions", "why_tests_cant": "all membership functions and resolutions", "anchors": ["src/defuzzifier/Centroid.cpp", "src/defuzzifier/Bisector.cpp", "src/defuzzifier/SmallestOfMaximum.cpp", "src/defuzzifier/LargestOfMaximum.cpp", "src/defuzzifier/MeanOfMaximum.cpp: defuzzify"]}
{"id": "C37", "title": "Maximum-based defuzzifiers agree and are ordered", "statement": "Over the sampled points, SmallestOfMaximum and LargestOfMaximum return the first and last sample attaining the maximum membership, MeanOfMaximum their mean over maximal samples, hence SOM<=MOM<=LOM, with equality iff the maximal samples coincide; all are invariant under multiplying the membership by a positive constant.", "quantifier": "all fuzzy sets, ranges, resolutions", "why_tests_cant": "all membership functions", "anchors": ["src/defuzzifier/SmallestOfMaximum.cpp", "src/defuzzifier/LargestOfMaximum.cpp", "src/defuzzifier/MeanOfMaximum.cpp"]}
{"id": "C38", "title": "Weighted defuzzifiers compute the weighted mean and sum", "statement": "WeightedAverage over activated terms with non-negative degrees, not all zero, lies between the least and greatest term value; WeightedSum equals WeightedAverage times the total degree; both return NaN for an empty fuzzy output; the result does not depend on the order of activation of terms when degrees are combined by a commutative-associative operator.", "quantifier": "all lists of activated terms", "why_tests_cant": "all lists, repetitions and orders", "anchors": ["src/defuzzifier/WeightedAverage.cpp", "src/defuzzifier/WeightedSum.cpp: defuzzify", "src/defuzzifier/WeightedDefuzzifier.cpp"]}
{"id": "C39", "title": "Weighted defuzzifier type inference is sound", "statement": "With type Automatic, the inferred type is TakagiSugeno only if every term is Constant, Linear or Function, Tsukamoto only if every term is monotonic, and mixed or unsupported term sets raise an exception instead of a wrong value; an empty set yields NaN.", "quantifier": "all lists of activated terms", "why_tests_cant": "all mixtures of term classes", "anchors": ["src/defuzzifier/WeightedDefuzzifier.cpp: inferType, defuzzify"]}
{"id": "C40", "title": "A range-locked variable always reports a value in its range", "statement": "After any sequence of API calls on a variable (setValue, setRange, setMinimum, setMaximum, lock on/off), if the value is locked to the range then the reported value is NaN or lies within [minimum, maximum].", "quantifier": "all call sequences", "why_tests_cant": "all histories of calls", "anchors": ["src/variable/Variable.cpp: setValue, setRange, setLockValueInRange"]}
{"id": "C41", "title": "Output value cascade: previous value, default value and range lock", "statement": "After OutputVariable::defuzzify on an enabled variable: if the defuzzifier yields a number, that number (clamped if locked to range) is the value; if it yields NaN and lock-previous is on, the value is the last value reported before this call when that is a number; otherwise the default. A disabled variable keeps its value; previousValue afterwards is the value before the call.", "quantifier": "all variables, histories of process() and defuzzified results", "why_tests_cant": "all sequences of valid and invalid defuzzifications", "anchors": ["src/variable/OutputVariable.cpp: defuzzify", "fuzzylite/variable/OutputVariable.h: documentation of lock-previous"]}
{"id": "C42", "title": "Processing is memoryless", "statement": "With lock-previous off, the output values after Engine::process depend only on the engine's configuration and the current input values: not on previously processed inputs, previous outputs, previous rule activations or earlier fuzzy outputs. Hence processing twice gives the same outputs, and restart() has no influence on later results.", "quantifier": "all engines, all histories of inputs", "why_tests_cant": "all histories", "anchors": ["src/Engine.cpp: process, restart", "src/rule/RuleBlock.cpp: activate", "src/activation/*.cpp"]}
{"id": "C43", "title": "Disabled components contribute nothing", "statement": "Engine::process ignores disabled rule blocks, never modifies input variables, leaves a disabled output variable's value unchanged and its fuzzy output empty, never triggers a disabled rule, and a proposition on a disabled variable counts as degree 0.", "quantifier": "all engines", "why_tests_cant": "all configurations and inputs", "anchors": ["src/Engine.cpp: process", "src/rule/Rule.cpp: trigger", "src/rule/Antecedent.cpp", "src/rule/Consequent.cpp", "src/variable/OutputVariable.cpp"]}
{"id": "C44", "title": "A cloned engine computes the same outputs", "statement": "Copying an engine yields an engine with the same configuration which, given the same inputs, computes the same output values.", "quantifier": "all engines and inputs", "why_tests_cant": "all engines; the difference shows only for engines modified after loading", "anchors": ["src/Engine.cpp: copyFrom", "src/rule/RuleBlock.cpp: copyFrom", "src/rule/Rule.cpp: Rule(const Rule&), load"]}
{"id": "C45", "title": "A ready engine does not fail for missing operators", "statement": "If Engine::isReady() is true then Engine::process() does not throw for a missing conjunction, disjunction, implication, aggregation or defuzzifier, whatever the input values.", "quantifier": "all engines and inputs", "why_tests_cant": "all rule texts and inputs", "anchors": ["src/Engine.cpp: isReady, process", "src/rule/Antecedent.cpp: activationDegree"]}
{"id": "C46", "title": "Name lookups return the first match and agree with membership tests", "statement": "For engines, variables and rule blocks: hasX(name) is true iff getX(name) does not throw; getX returns the first component with that name; add/insert/set/remove act as list operations at the given position, removal by name removes only the first match and returns it; out-of-range indices raise.", "quantifier": "all component lists and names", "why_tests_cant": "all lists and operation sequences", "anchors": ["src/Engine.cpp: get/has/add/insert/remove*", "src/variable/Variable.cpp: getTerm, hasTerm, removeTerm", "src/rule/RuleBlock.cpp"]}
{"id": "C47", "title": "Fuzzification reports every term and the highest is maximal", "statement": "Variable::highestMembership(x) returns the first term attaining the greatest positive membership of x among the terms (none if no term has positive membership), with its degree; activations(x) has one entry per term in order with its membership degree.", "quantifier": "all variables, all x", "why_tests_cant": "all term lists and all x", "anchors": ["src/variable/Variable.cpp: activations, maxActivations, highestMembership, fuzzify"]}
{"id": "C48", "title": "Benchmark error counts are consistent", "statement": "For any expected/obtained tables, allErrors = nonFiniteErrors + accuracyErrors; the count for all outputs is the sum over output variables; the mean squared error is non-negative, and zero when no accuracy error exists.", "quantifier": "all tables", "why_tests_cant": "all tables", "anchors": ["src/Benchmark.cpp: numberOfErrors, meanSquaredError"]}
{"id": "C49", "title": "Factories behave as maps from names to constructors", "statement": "After any sequence of register/deregister calls: has(name) iff name was registered after its last deregistration; construct returns an object made by the last registered constructor and raises for unregistered names; available() lists exactly the registered names, once each and sorted; a copied factory is independent of the original.", "quantifier": "all call sequences", "why_tests_cant": "all histories of registrations", "anchors": ["fuzzylite/factory/ConstructionFactory.h", "fuzzylite/factory/CloningFactory.h"]}
{"id": "C50", "title": "Range scaling is the affine bijection between ranges", "statement": "Op::scale(x, fromMin, fromMax, toMin, toMax) maps fromMin to toMin and fromMax to toMax, is affine and monotone, is inverted by swapping the ranges, and composing two scalings equals the direct scaling; Op::midpoints(start,end,n) yields n equidistant points strictly inside the interval, symmetric about its centre.", "quantifier": "all ranges with fromMin != fromMax, all x, all n>=1", "why_tests_cant": "continuum", "anchors": ["fuzzylite/Operation.h: Operation::scale, midpoints"]}
{"id": "C51", "title": "Exported FLL text is a fixed point of import followed by export", "statement": "Importing an exported engine and exporting it again yields the same text (so no information present in the text is lost or altered by the importer).", "quantifier": "all engines with well-formed names", "why_tests_cant": "all engines", "anchors": ["src/imex/FllExporter.cpp", "src/imex/FllImporter.cpp", "src/term/*.cpp: parameters, configure"]}
{"id": "C52", "title": "Exported data covers the input space on a regular grid", "statement": "FldExporter::write(engine, values, scope) processes the engine exactly once per grid point; the grid has (resolution+1)^(active variables) points, every coordinate lies within the variable's range, includes both ends of each active variable's range when resolution>=1, and inactive variables keep their value.", "quantifier": "all engines, values, scopes and active sets", "why_tests_cant": "all dimensions and resolutions", "anchors": ["src/imex/FldExporter.cpp: write", "fuzzylite/Operation.h: increment"]}
{"id": "C53", "title": "Term parameters survive a write/read cycle", "statement": "For every term class, configuring a fresh term from parameters() of an existing one restores every parameter and the height (to the printed precision); too few parameters raise an exception and leave the term unchanged; an empty string changes nothing.", "quantifier": "all term classes and parameter values", "why_tests_cant": "all parameter values", "anchors": ["src/term/*.cpp: parameters, configure"]}
{"id": "C54", "title": "Restart and clear return to the initial state", "statement": "After Engine::restart all input values are NaN, all output values and previous values are NaN and all fuzzy outputs are empty, regardless of history; and it is idempotent.", "quantifier": "all engine states", "why_tests_cant": "all histories", "anchors": ["src/Engine.cpp: restart", "src/variable/OutputVariable.cpp: clear"]}
{"id": "C55", "title": "Sample statistics are consistent", "statement": "Op::mean lies between the least and greatest element; Op::variance is non-negative, zero iff all elements coincide, invariant under translation; the standard deviation is its square root; empty input gives NaN.", "quantifier": "all finite lists of finite scalars", "why_tests_cant": "all lists", "anchors": ["fuzzylite/Operation.h: mean, variance, standardDeviation"]}
{"id": "C56", "title": "Text replacement substitutes the pattern and keeps the rest", "statement": "For a non-empty pattern, Op::replaceAll(text, find, replacement) terminates and equals the join with the replacement of the pieces of the text split at the pattern; Op::replaceFirst replaces the first occurrence only and keeps the text before and after it.", "quantifier": "all texts, patterns and replacements", "why_tests_cant": "ranges over all strings", "anchors": ["fuzzylite/Operation.h: Operation::findReplace, replaceFirst, replaceAll"]}
{"id": "C57", "title": "Benchmark rows are answered independently", "statement": "Benchmark::runOnce sets the inputs of each row of expected data, processes the engine and records the inputs and the outputs: each obtained row is what the engine answers to the inputs of that row, whatever rows came before, in whatever order the rows are given and however often the benchmark is run; rows with fewer values than input variables raise, and a benchmark without an engine raises.", "quantifier": "all engines, all tables of expected data", "why_tests_cant": "ranges over all engines, tables and permutations", "anchors": ["src/Benchmark.cpp: runOnce, run"]}
{"id": "C58", "title": "An engine reproduces its own exported data", "statement": "Benchmarking an engine against the grid of values it exported itself obtains exactly the expected rows: no accuracy errors and a mean squared error of zero.", "quantifier": "all engines and grids", "why_tests_cant": "ranges over all engines and resolutions", "anchors": ["src/imex/FldExporter.cpp: write", "src/Benchmark.cpp: prepare, run, numberOfErrors, meanSquaredError"]}
{"id": "C59", "title": "Data text is read line by line", "statement": "Benchmark::prepare(reader) and FldExporter::write(reader) read the lines of numbers of a text: blank lines and lines starting with # are skipped, one header is allowed on the first line, every other line must be a list of numbers or the reading raises; reading exported data text yields the exported rows.", "quantifier": "all texts, all rows", "why_tests_cant": "ranges over all texts", "anchors": ["src/Benchmark.cpp: prepare", "src/imex/FldExporter.cpp: parse, write"]}
{"id": "C60", "title": "Linear terms are affine functions of the inputs", "statement": "Linear::membership is the sum of the coefficients times the values of the input variables in order, plus the last coefficient when there are more coefficients than input variables; coefficients between are ignored, input variables without coefficients do not count, the argument does not matter, and without an engine it raises.", "quantifier": "all coefficients, all engines, all values", "why_tests_cant": "ranges over all coefficient lists and inputs", "anchors": ["src/term/Linear.cpp: membership"]}
{"id": "C61", "title": "Well-formed engines never fail", "statement": "If the rules of an engine were loaded from texts with its own variables and terms, the operators and defuzzifiers that they need are present, every defuzzifier suits the terms of its variable, and every term, norm and hedge can be evaluated, then Engine::process raises no exception and has no undefined behaviour, for all values of the input variables (including infinities and NaN) and after every sequence of setting inputs, processing and restarting.", "quantifier": "all engines, all input values, all histories", "why_tests_cant": "ranges over all engines, all inputs and all histories", "anchors": ["src/Engine.cpp: process, restart", "src/rule/RuleBlock.cpp: activate", "src/activation: activate of every class", "src/rule/Antecedent.cpp: activationDegree", "src/rule/Consequent.cpp: modify", "src/variable/OutputVariable.cpp: defuzzify", "src/term/Aggregated.cpp: membership, grouped"]}
{"id": "C62", "title": "Kinds of engines", "statement": "Engine::type reports Mamdani when all output variables have integral defuzzifiers, Larsen when in addition there is a rule block and every implication is the algebraic product, TakagiSugeno, Tsukamoto or InverseTsukamoto when all have weighted defuzzifiers that suit, invert or do not suit their terms, Hybrid for mixtures, Unknown without outputs or defuzzifiers; the kind does not depend on the order of components nor on values, and is kept by processing.", "quantifier": "all engines", "why_tests_cant": "ranges over all engines", "anchors": ["src/Engine.cpp: type", "fuzzylite/Engine.h: Type"]}
{"id": "C63", "title": "Sorting terms by centroid", "statement": "Variable::sort rearranges the terms of a variable in ascending order of their centroids (the values of Constant and Linear terms, infinity for terms that raise), loses and duplicates no term, changes nothing else and never raises.", "quantifier": "all variables, all lists of terms", "why_tests_cant": "ranges over all lists of terms and all orders of equal keys", "anchors": ["src/variable/Variable.cpp: sort"]}
{"id": "C64", "title": "Configuring an engine", "statement": "Engine::configure gives every rule block the conjunction, disjunction, implication and activation, and every output variable the aggregation and defuzzifier, and changes nothing else; the last configuration wins; a full configuration makes the engine ready; configuring by names succeeds exactly when every name is empty or registered, and otherwise raises and changes nothing.", "quantifier": "all engines, all operators, all names", "why_tests_cant": "ranges over all engines and names", "anchors": ["src/Engine.cpp: configure", "src/factory: constructObject"]}
{"id": "C65", "title": "Comparisons survive rounding", "statement": "In floating-point arithmetic with any monotone rounding, in particular binary64, at most one of isLt, isEq and isGt holds, one of them holds unless exactly one argument is NaN, isEq is reflexive and symmetric, isLE and isGE are the unions and isGt mirrors isLt, including when differences overflow or underflow.", "quantifier": "all formats, all pairs of numbers of the format, infinities and NaN included", "why_tests_cant": "2^128 pairs of doubles; rounding of differences matters near the tolerance", "anchors": ["fuzzylite/Operation.h: isEq, isLt, isLE, isGt, isGE"]}
{"id": "C66", "title": "Truth degrees survive rounding", "statement": "In binary64 arithmetic, norms and hedges of numbers in [0,1] are in [0,1], T-norms are at most and S-norms at least their arguments, norms commute and are monotone; so degrees of antecedents and membership values of fuzzy outputs remain in [0,1].", "quantifier": "all pairs of doubles in [0,1], all antecedents, all fuzzy outputs", "why_tests_cant": "violations, where they exist, are of one unit in the last place and depend on how particular sums and products round", "anchors": ["src/norm/t", "src/norm/s", "src/hedge", "src/rule/Antecedent.cpp: activationDegree", "src/term/Aggregated.cpp: membership", "src/term/Triangle.cpp", "src/term/Trapezoid.cpp", "src/term/Ramp.cpp"]}
{"id": "C67", "title": "The grammar of the FuzzyLite Language", "statement": "FllImporter accepts exactly the texts whose lines, after removing comments and blanks, are pairs of a key and a value, where pairs naming and describing the engine come first and every component is followed by pairs of keys it knows with values of the right form; the engine built is the one the pairs describe, in their order, and it does not depend on the separator other than through the rows it makes.", "quantifier": "all texts, all separators, all registries", "why_tests_cant": "texts are unbounded, and a test of what is rejected covers one wrong text at a time", "anchors": ["src/imex/FllImporter.cpp: fromString, process, processInputVariable, processOutputVariable, processRuleBlock, parseTerm, parseTNorm, parseSNorm, parseActivation, parseDefuzzifier, parseRange, parseBoolean, parseKeyValue, clean"]}
{"id": "C68", "title": "What survives the Fuzzy Control Language", "statement": "Importing the FCL text exported from an engine yields the engine with the same name, variables, ranges, terms, norms, classes of defuzzifiers, default values, locks of the previous value, and rules; exporting that engine yields the same text.", "quantifier": "all engines, all indentations made of blanks, all registries of functions", "why_tests_cant": "engines are unbounded, and the tests of the repository compare the text of one engine", "anchors": ["src/imex/FclExporter.cpp: toString", "src/imex/FclImporter.cpp: fromString, processBlock, processVar, processFuzzify, processDefuzzify, processRuleBlock, parseTNorm, parseSNorm, parseTerm, parseDefuzzifier, parseDefaultValue, parseRange"]}
{"id": "C69", "title": "The grammar of the Fuzzy Control Language", "statement": "FclImporter accepts exactly the texts whose lines, after removing comments, semicolons and surrounding blanks, are names of the function block, and blocks opened and closed by the keywords of the language that are not nested and whose lines are of the kinds the block knows with values of the right form, up to the end of the function block; the engine built is the one that the lines describe, in their order.", "quantifier": "all texts, all registries, all default resolutions", "why_tests_cant": "texts are unbounded, and a test of what is rejected covers one wrong text at a time", "anchors": ["src/imex/FclImporter.cpp: fromString, processBlock, processVar, processFuzzify, processDefuzzify, processRuleBlock, parseTNorm, parseSNorm, parseTerm, parseDefuzzifier, parseDefaultValue, parseRange, parseLocks, parseEnabled"]}
{"id": "C70", "title": "What survives the FIS format", "statement": "Importing the FIS text exported from an engine yields the engine with the same name, variables, ranges, terms, norms, class of defuzzifier and loaded rules: each rule has the same propositions with the same hedges, joined by the same operator, the same conclusions and the same weight.", "quantifier": "all engines, all registries of functions and hedges, all default resolutions", "why_tests_cant": "engines and rules are unbounded, and the numeric codes of hedges collide only for particular combinations", "anchors": ["src/imex/FisExporter.cpp: toString, exportSystem, exportInputs, exportOutputs, exportRules, exportRule, translate", "src/imex/FisImporter.cpp: fromString, importSystem, importInput, importOutput, importRules, translateProposition, translateTNorm, translateSNorm, translateDefuzzifier, parseRange, parseTerm, createInstance"]}
{"id": "C71", "title": "The grammar of the FIS format", "statement": "The FIS importer accepts a text exactly when, comments and quotes left out, it is a sequence of sections (system, inputs, outputs, rules) whose lines are properties or rules that the section knows, with well-formed numbers, ranges, terms, codes and connectors, and names of methods that exist; the engine is then what the sections say in order. Every other text is rejected.", "quantifier": "all texts, all registries of functions and hedges, all default resolutions", "why_tests_cant": "texts are unbounded; tests try well-formed files and a few malformed ones", "anchors": ["src/imex/FisImporter.cpp: fromString, importSystem, importInput, importOutput, importRules, translateProposition, translateTNorm, translateSNorm, translateDefuzzifier, parseRange, parseTerm, createInstance"]}
{"id": "C72", "title": "Defuzzification survives rounding", "statement": "When every operation is rounded, as with double, the results of the integral defuzzifiers are still in the range of the variable or not a number, and the results of the weighted defuzzifiers are still as close to the exact weighted average and sum as rounding permits: a weighted average of values between two bounds is between them up to a multiple of the relative error of rounding.", "quantifier": "all membership functions, all ranges, all resolutions, all fuzzy outputs with any number of terms, all roundings with the error bounds of IEEE 754, and double in particular", "why_tests_cant": "the errors of rounding add up over the samples and depend on every single value; the range is left only for particular combinations of bounds and resolution", "anchors": ["src/defuzzifier/Bisector.cpp: defuzzify", "src/defuzzifier/Centroid.cpp: defuzzify", "src/defuzzifier/SmallestOfMaximum.cpp: defuzzify", "src/defuzzifier/LargestOfMaximum.cpp: defuzzify", "src/defuzzifier/MeanOfMaximum.cpp: defuzzify", "src/defuzzifier/WeightedAverage.cpp: defuzzify", "src/defuzzifier/WeightedSum.cpp: defuzzify", "fuzzylite/Operation.h: mean, sum"]}
{"id": "C73", "title": "Numbers of type double survive their text", "statement": "A number written with a given number of decimals is read as a number that is written alike and lies within one unit of the last decimal; it is read exactly when it needs no more decimals or when the decimals are finer than half the distance between the doubles there. The text formats FLL, FCL and FIS keep engines of doubles as they keep engines of exact numbers.", "quantifier": "all doubles, infinities and NaN, all numbers of decimals from 0 to 300, all engines", "why_tests_cant": "there are 2^64 doubles for every number of decimals, and double rounding (to decimals, then to double) goes wrong only for particular ties", "anchors": ["fuzzylite/Operation.h: str, toScalar, isEq", "fuzzylite/fuzzylite.h: setDecimals, decimals", "src/imex/FllExporter.cpp: toString", "src/imex/FllImporter.cpp: fromString", "src/imex/FisExporter.cpp: translate", "src/imex/FisImporter.cpp: translateProposition"]}
{"id": "C74", "title": "Exported C++ code builds the engine", "statement": "The code that CppExporter writes for an engine is accepted by a compiler, and executing it builds an engine with the same components, up to the precision of the numbers written: the FLL text of the engine built is the FLL text of the original. This holds with and without namespace prefixes, and with and without the names of variables.", "quantifier": "all engines whose names, texts and numbers can be written in C++, all settings of the exporter", "why_tests_cant": "the tests compile a handful of exported examples at most; every kind of term, operator, name and number leads to other code, and a wrong class, argument order or name only shows when the code is compiled and run", "anchors": ["src/imex/CppExporter.cpp: toString", "fuzzylite/term/Discrete.h: create", "fuzzylite/term/Linear.h: create", "src/term/Function.cpp: create", "src/rule/Rule.cpp: parse"]}
{"id": "C75", "title": "The interactive console shows what the engine computes", "statement": "In Console::interactive, typing a number for every input variable, each followed by a blank, shows the texts typed, an equals sign and the values that processing the engine with these inputs gives, whatever was typed before. P processes with the values typed so far and the current values of the other input variables, D and R discard the values typed, R restarts the engine, Q ends the session. No sequence of keys makes the console of an engine with input variables fail, and nothing of the engine changes but its values.", "quantifier": "all engines, all sequences of keys", "why_tests_cant": "the console reads a terminal and is not tested; the state depends on every key typed before", "anchors": ["src/Console.cpp: interactive", "src/Engine.cpp: process, restart", "src/variable/OutputVariable.cpp: defuzzify"]}
{"id": "C76", "title": "The program converts files as its options ask", "statement": "The options of the program may come in any order and the last value of each counts; unknown options and options without a value are rejected, and nothing is written. Two file names convert the first file to the second by their extensions. The output is the text of the imported engine in the format asked, or its data for a data file, for a number of values, or for what is typed; it is written to the output file, or printed without one. An FLL or FCL text written by the library is copied unchanged, and C++ or Java code written builds the engine read. The output file is touched only if the options and the input allow writing it.", "quantifier": "all lists of arguments, all contents of files, all engines", "why_tests_cant": "the tests call the exporters, not the program; combinations of options and their order are many, and the ways to fail more", "anchors": ["src/Console.cpp: main, parse, process, usage, availableOptions, mamdani, takagiSugeno"]}
{"id": "C77", "title": "Exported Java code builds the engine", "statement": "The code that JavaExporter writes for an engine is accepted by a compiler, and executing it with classes like those of fuzzylite builds an engine with the same components, up to the precision of the numbers written: the FLL text of the engine built is the FLL text of the original. It builds what the exported C++ code builds. This holds with and without the names of variables.", "quantifier": "all engines whose names, texts and numbers can be written in Java, both settings of the exporter", "why_tests_cant": "the Java code is not compiled in the tests; every kind of term, operator, name and number leads to other code, and a wrong class, argument order or name only shows when the code is compiled and run", "anchors": ["src/imex/JavaExporter.cpp: toString", "src/imex/CppExporter.cpp: toString"]}
{"id": "C78", "title": "Exported R scripts run and plot the engine", "statement": "The script that RScriptExporter writes for an engine, two of its input variables and some of its output variables runs in R: it holds the name, the description and the FLL text of the engine, reads the table of the values of all variables at the points of the grid (or from the file named), makes two plots of every output variable over the input variables from the columns of these variables, saves them together in a file named after the engine and draws them, as far as the packages are installed. Exporting does not change the engine.", "quantifier": "all engines, choices of variables, numbers of values, scopes and sets of installed packages", "why_tests_cant": "the tests compare no R script, and none is run; a wrong column, name of a plot, comma or quote only shows when the script is run, and then only for engines with the number of variables or the texts concerned", "anchors": ["src/imex/RScriptExporter.cpp: toString", "src/imex/RScriptExporter.cpp: writeScriptImportingDataFrame", "src/imex/RScriptExporter.cpp: writeScriptExportingDataFrame", "src/imex/RScriptExporter.cpp: writeScriptHeader", "src/imex/RScriptExporter.cpp: writeScriptPlots", "src/imex/FldExporter.cpp: write"]}
{"id": "C79", "title": "The table of a benchmark describes its runs", "statement": "The results of a benchmark name, once each and in the order of the header for as many runs, the engine, the numbers of its variables, blocks and rules, of runs and evaluations, the errors if they can be computed (their counts, the root of the mean squared error, also normalised by the ranges) and the sum, mean and standard deviation of the times and every time, in the unit asked for; units convert consistently. Formatted as a horizontal or vertical table, every name and value is in its own cell. Running several times obtains the same values and adds the times.", "quantifier": "all engines, tables of values, choices of output variable, lists of times, units, shapes and contents of the table", "why_tests_cant": "the tests convert three times and print the results of a few runs without comparing them; columns out of order, wrong units or wrong statistics would go unnoticed", "anchors": ["src/Benchmark.cpp: run", "src/Benchmark.cpp: reset", "src/Benchmark.cpp: factorOf", "src/Benchmark.cpp: convert", "src/Benchmark.cpp: header", "src/Benchmark.cpp: results", "src/Benchmark.cpp: format", "fuzzylite/Operation.h: sum, mean, variance, standardDeviation, str"]}
{"id": "C80", "title": "The commands of the console do what they are asked", "statement": "`benchmark` and `benchmarks` evaluate the engine of each file on the data of its file as many times as asked and write the header and one row per benchmark, in the order of the lists, with a value under every name; blank lines and comments are left out, and after an exception the rows before it are kept. `export-examples` writes every example in every format, each from the engine of its source, which does not change by writing and reading it in the formats that can be read. Only the files named are written, the files read are not, and what cannot be done is reported.", "quantifier": "all arguments, files, lists of files, numbers of runs, times of the clock and engines", "why_tests_cant": "no test calls these commands, which read and write files in the directory of the project; the tables depend on the clock, and the cases that go wrong (lists of different lengths, files that cannot be created, a file that is read and written) do not occur with the examples", "anchors": ["src/Console.cpp: benchmark", "src/Console.cpp: benchmarks", "src/Console.cpp: exportAllExamples", "src/Console.cpp: main"]}
{"id": "C81", "title": "The texts of antecedents and consequents say what was loaded", "statement": "The text of a loaded antecedent in infix, prefix and postfix notation consists of the words of its propositions and operators in that order. The postfix text is the form the loader works on, different antecedents have different prefix and postfix texts, and the infix text, which is the text of the antecedent, loads into the same antecedent with the same degree. The text of a consequent loads into the same conclusions. An antecedent that is not loaded has no text.", "quantifier": "all trees of propositions over all engines, hedges, terms and registries of operators", "why_tests_cant": "trees are unbounded, and the tests compare the texts of a few antecedents without parentheses with texts written by hand", "anchors": ["src/rule/Expression.cpp: Proposition::toString", "src/rule/Antecedent.cpp: toPrefix", "src/rule/Antecedent.cpp: toInfix", "src/rule/Antecedent.cpp: toPostfix", "src/rule/Consequent.cpp: toString"]}
{"id": "C82", "title": "The texts of fuzzy values show the degree of every term", "statement": "The text of a fuzzy set is a sum that shows each of its terms once and in order, with the sign and the magnitude of its degree. The fuzzy value of an input variable shows the membership of its value in every term, NaN where a term raises an exception. The fuzzy value of an output variable shows every term of the variable in order, with zero if it is not activated and with its activation degree otherwise.", "quantifier": "all variables, terms, degrees, values, aggregation operators and numbers of decimals, on exact numbers and on double", "why_tests_cant": "the tests compare the texts of a few variables with short names and non-negative degrees; the number of terms and activations is unbounded, and that the text can be read back takes an argument about every name", "anchors": ["src/term/Activated.cpp: fuzzyValue", "src/term/Aggregated.cpp: fuzzyValue", "src/variable/Variable.cpp: fuzzify", "src/variable/InputVariable.cpp: fuzzyInputValue", "src/variable/OutputVariable.cpp: fuzzyOutputValue"]}
{"id": "C83", "title": "Membership functions survive rounding", "statement": "In floating-point arithmetic the value of every membership function of height h in (0, 1] at any argument is not a number or lies between 0 and h. It is a number if the parameters are finite and widths are not zero. Ramp stays monotone.", "quantifier": "all finite and infinite parameters, arguments and heights of a floating-point format, double in particular, with any library functions that satisfy the stated bounds", "why_tests_cant": "the tests compare a few dozen arguments per term within a tolerance; whether the last bit can exceed the height, or an intermediate result overflows, depends on the rounding of every operation for 2^64 arguments and parameters of any size", "anchors": ["src/term/Bell.cpp", "src/term/Binary.cpp", "src/term/Concave.cpp", "src/term/Cosine.cpp", "src/term/Discrete.cpp", "src/term/Gaussian.cpp", "src/term/GaussianProduct.cpp", "src/term/PiShape.cpp", "src/term/Ramp.cpp", "src/term/Rectangle.cpp", "src/term/SShape.cpp", "src/term/Sigmoid.cpp", "src/term/SigmoidDifference.cpp", "src/term/SigmoidProduct.cpp", "src/term/Spike.cpp", "src/term/ZShape.cpp"]}
{"id": "C84", "title": "Every object of an engine has one owner", "statement": "Destructors delete each object exactly once, and what is deleted is not used again. Copy constructors and assignments of variables, rules, rule blocks and engines, the loading and unloading of rules, the containers, the setters and the configuration of engines keep every object with exactly one owner: no object is lost, none is deleted twice, and no other object changes. A copy of an engine refers to nothing of the original.", "quantifier": "all memories, engines and rules of any size, texts of rules, registries of hedges and functions, and sequences of these operations", "why_tests_cant": "the tests copy a few engines and do not look at memory; leaks and dangling pointers show only under instrumentation, and only for the texts, the orders of operations and the exceptions that a test happens to use", "anchors": ["src/Engine.cpp:64-122,153-190,527-564", "src/variable/Variable.cpp:41-70", "src/variable/OutputVariable.cpp:33-57", "src/rule/RuleBlock.cpp:48-113", "src/rule/Rule.cpp:35-62,142-239", "src/rule/Antecedent.cpp:36-38,152-319", "src/rule/Consequent.cpp:33-216", "src/rule/Expression.cpp:34-70", "src/term/Aggregated.cpp:36-61"]}
{"id": "C85", "title": "Loading rules into an engine agrees with the value of their texts", "statement": "Loading an antecedent, a consequent, a rule or the rules of a rule block leaves in memory exactly the expressions, operators, hedges and propositions that the text denotes, with references to the variables and terms of the engine that are found by name, and succeeds exactly when the text denotes a rule. The rules of a copied or assigned engine are those of the original, with references to the variables and terms of the new engine.", "quantifier": "all memories in which every object has one owner, engines with any names of variables and terms, texts of rules, registries of hedges and functions", "why_tests_cant": "the tests compare the text printed from copies, which does not show what the pointers of propositions refer to; a copy that refers to a variable of the original computes the same result until the original changes", "anchors": ["src/rule/Antecedent.cpp:152-319", "src/rule/Consequent.cpp:83-216", "src/rule/Rule.cpp:142-239", "src/rule/RuleBlock.cpp:92-123", "src/Engine.cpp:64-122"]}
{"id": "C86", "title": "The activation degrees of rules survive rounding", "statement": "The degree computed in floating point for an antecedent or a rule differs from the degree that exact arithmetic gives by no more than a few roundings per operator and a constant times the errors of the membership degrees; the membership functions of straight lines are within the tolerance divided by their width of their exact values; and the errors of the degrees change a weighted average of bounded values by at most a multiple of themselves.", "quantifier": "all antecedents of any size and shape, hedges, norms, weights from 0 to 1, parameters and input values of moderate size, and rounding formats with the accuracy of double", "why_tests_cant": "the tests compare with values that were computed in the same way; how errors accumulate over the size of an antecedent, and which operators amplify them, is a statement about all expressions and all numbers", "anchors": ["src/rule/Antecedent.cpp:75-150", "src/rule/Rule.cpp:100-116", "src/norm/t/*.cpp: compute", "src/norm/s/*.cpp: compute", "src/hedge/*.cpp: hedge", "src/term/Ramp.cpp:33-50", "src/term/Trapezoid.cpp:44-68", "src/term/Triangle.cpp:39-57", "src/defuzzifier/WeightedAverage.cpp"]}
{"id": "C87", "title": "A Takagi-Sugeno controller survives rounding", "statement": "When an engine with one block of Takagi-Sugeno rules (constants as conclusions, General activation, WeightedAverage) is processed in floating point, the output differs from the average that exact arithmetic gives by at most a multiple of the errors of the degrees of the rules and of the tolerance, divided by the sum of the degrees, and a few roundings per rule; no exception is raised.  Rules that conclude the same term are added up, rules whose degrees are below the tolerance are left out.", "quantifier": "all engines of this kind with any number of inputs, rules and terms, antecedents of any size and shape, and rounding formats with the accuracy of double", "why_tests_cant": "the tests compare outputs with those that the same program computed earlier; a bound on the distance to the exact output for all engines needs the propagation of errors through membership, antecedents, triggering, grouping and defuzzification", "anchors": ["src/Engine.cpp:297-350", "src/activation/General.cpp:42-57", "src/rule/Rule.cpp:117-132", "src/rule/Consequent.cpp:55-74", "src/term/Aggregated.cpp: grouped", "src/defuzzifier/WeightedAverage.cpp:36-62", "src/variable/OutputVariable.cpp:defuzzify"]}
{"id": "C88", "title": "A Mamdani controller survives rounding", "statement": "When an engine with one block of Mamdani rules (any terms with known errors, General activation, a continuous implication and aggregation, Centroid) is processed in floating point, the output is in the range of the output variable and differs from the centre of the exact fuzzy output at the sampled points by at most a multiple of the errors of the degrees of the rules, of the terms and of the tolerance, divided by the sum of the degrees of the fuzzy output, and a few roundings per point; no exception is raised.", "quantifier": "all engines of this kind with any number of inputs, rules, terms and sampled points, antecedents of any size and shape, and rounding formats with the accuracy of double", "why_tests_cant": "the tests compare outputs with those that the same program computed earlier; a bound on the distance to the exact output for all engines needs the propagation of errors through membership, antecedents, triggering, implication, aggregation and integration", "anchors": ["src/Engine.cpp:297-350", "src/activation/General.cpp:42-57", "src/rule/Rule.cpp:117-132", "src/rule/Consequent.cpp:55-74", "src/term/Activated.cpp:membership", "src/term/Aggregated.cpp:membership", "src/defuzzifier/Centroid.cpp:30-47", "src/variable/OutputVariable.cpp:defuzzify"]}
{"id": "C89", "title": "Formulas own their trees", "statement": "Parsing a formula, and loading, unloading, copying and assigning Function terms, keep every node of a tree and every element with exactly one owner: no object is lost, none is deleted twice, and nothing else changes. The tree in memory is the tree that the formula denotes, copies have the same tree in other objects, and a formula that is rejected leaves the term with the tree it had. Evaluating a loaded term uses only objects that exist.", "quantifier": "all memories, formulas, registries of operators and functions, trees of any size, and terms with or without an engine", "why_tests_cant": "the tests parse a few formulas and do not look at memory; a leak shows only under instrumentation and for the formulas that happen to be rejected, and that the objects of a tree are its formula's holds for unboundedly many formulas", "anchors": ["src/term/Function.cpp:35-43", "src/term/Function.cpp:140-175", "src/term/Function.cpp:255-257", "src/term/Function.cpp:349-394", "src/term/Function.cpp:429-448", "src/term/Function.cpp:607-658"]}
{"id": "C90", "title": "The status of an engine lists exactly what is missing", "statement": "The status written by Engine::isReady is the text of exactly the components that are missing, each once and in the order of the engine: variables, rule blocks, terms, defuzzifiers, aggregations needed by integral defuzzifiers, rules, and the operators that rules need, with the number of rules that need them. It is empty exactly when isReady returns true, and supplying an operator removes its lines and no other.", "quantifier": "all engines, with any number of variables, rule blocks and rules, and any names and texts of rules", "why_tests_cant": "the tests compare the status of a few engines; that nothing is missed, repeated or miscounted is a statement about every combination of missing components and every text of a rule", "anchors": ["src/Engine.cpp:189-288"]}
{"id": "C91", "title": "The descriptions of fuzzy sets say what they are made of", "statement": "The description (toString) of a fuzzy set can be read back: it gives the name of the set, the class of its aggregation if there is one, and for every activated term, in order, the class of the implication if there is one, the degree and the name of the term; fuzzy sets with equal descriptions agree on all of these. The parameters of a fuzzy set list its aggregation, its range, and the name, class and parameters of every activated term in order.", "quantifier": "all fuzzy sets with any number of activated terms, degrees, operators and names", "why_tests_cant": "the tests compare the texts of a few fuzzy sets; that different sets have different texts is a statement about pairs of sets with unboundedly many terms and names", "anchors": ["src/term/Activated.cpp:58-80", "src/term/Aggregated.cpp:160-192", "src/imex/FllExporter.cpp:162-176"]}
{"id": "C92", "title": "The order of rules and rule blocks does not matter", "statement": "If the antecedents of the rules of an engine are about input variables, then reordering its rule blocks, whatever their activation methods, and reordering the rules of blocks with General or Threshold activation (and Proportional, if numbers may be added in any order) only reorders what is added to the fuzzy outputs: if the engine is processed without exception then so is the reordered one, the rules end up with the same degrees and triggers, and the output variables with the same values, provided that the defuzzifier does not depend on the order of the activated terms. The latter is so for integral defuzzifiers with Maximum in every format of numbers and, in exact arithmetic, for integral and weighted defuzzifiers with every operator other than HamacherSum.", "quantifier": "all engines, all numbers of blocks, rules, conclusions and variables, all permutations, all input values", "why_tests_cant": "the tests process each engine with its rules in one order; there are factorially many orders of unboundedly many rules", "anchors": ["src/Engine.cpp:297-350", "src/activation/General.cpp:42-57", "src/activation/Threshold.cpp:158-173", "src/activation/Proportional.cpp:41-66", "src/rule/Rule.cpp:112-132", "src/rule/Consequent.cpp:55-74", "src/term/Aggregated.cpp:67-158", "src/defuzzifier/WeightedAverage.cpp:36-62"]}
{"id": "C93", "title": "Engines have no preferred origin", "statement": "If every variable of an engine is moved along its axis by an amount of its own (range, terms, value, previous and default value), then the engine processes as before: the rules are activated with the same degrees and triggered alike, the same exceptions are thrown, and the values of the output variables are the original ones moved by the amounts chosen for them, also when they are infinite or clamped to the range. This holds for all membership functions, norms, hedges, activation methods and integral defuzzifiers, and for weighted averages of constants or of Tsukamoto terms.", "quantifier": "all engines, all amounts by which variables are moved, all values of inputs, all resolutions, in exact arithmetic with every tolerance", "why_tests_cant": "the tests evaluate terms and engines at fixed places; the statement compares two engines at every place and for every amount", "anchors": ["src/term/Triangle.cpp:39-57", "src/term/PiShape.cpp:37-62", "src/term/Concave.cpp:33-52", "src/term/Discrete.cpp:44-75", "src/defuzzifier/Bisector.cpp:32-63", "src/defuzzifier/Centroid.cpp:32-47", "src/defuzzifier/WeightedAverage.cpp:36-62", "src/variable/OutputVariable.cpp:122-140", "src/Engine.cpp:297-350"]}
{"id": "C94", "title": "Integral defuzzifiers converge as the resolution grows", "statement": "For a fuzzy set of activated shapes with any of the implications AlgebraicProduct, BoundedDifference and Minimum and any of the aggregations AlgebraicSum, BoundedSum, Maximum, NormalizedSum and UnboundedSum, the membership function has an integral over every range. If the integral is not zero, the Centroid converges to the centre of gravity of the set, that is the integral of x times the membership divided by the integral of the membership, as the resolution grows; and the Bisector converges to the place that halves the area, if there is just one. SmallestOfMaximum, LargestOfMaximum and MeanOfMaximum converge to the ends and the middle of the plateau, for every membership function that is greatest on one plateau only, and to the peak, for every continuous one with just one peak.", "quantifier": "all fuzzy sets of any number of activated shapes with finite parameters, all ranges, all accuracies asked for, all resolutions from some resolution on", "why_tests_cant": "a limit is a statement about infinitely many resolutions; the tests compare a few sets at one resolution with expected values of a few digits", "anchors": ["src/defuzzifier/Centroid.cpp:32-47", "src/defuzzifier/Bisector.cpp:32-63", "src/term/Aggregated.cpp:67-83", "src/term/Activated.cpp:43-56", "src/term/Bell.cpp", "src/term/Triangle.cpp:39-57", "src/norm/t/Minimum.cpp:28-30", "src/norm/s/Maximum.cpp:28-30", "src/defuzzifier/SmallestOfMaximum.cpp", "src/defuzzifier/LargestOfMaximum.cpp", "src/defuzzifier/MeanOfMaximum.cpp"]}
{"id": "C95", "title": "A rule with several conclusions is several rules with one conclusion each", "statement": "Writing \"if A then B and C\" as the two rules \"if A then B\" and \"if A then C\" next to each other, with the weight and the enabled flag of the original, does not change what an engine computes: the same activated terms are added to the fuzzy outputs in the same order, the output values are the same, and so is the exception if there is one.", "quantifier": "all engines, all rule blocks, all rules with any number of conclusions, all ways of sharing them among rules, all numbers", "why_tests_cant": "the tests never compare two engines with differently written rules; which conclusions leak into each other depends on the hedges, the activation method and the variables of the antecedent", "anchors": ["src/rule/Consequent.cpp:55-74", "src/rule/Rule.cpp:112-132", "src/activation/General.cpp:42-57", "src/activation/Threshold.cpp:158-173", "src/activation/First.cpp:55-78", "src/activation/Proportional.cpp:42-66", "src/Engine.cpp:297-350"]}
{"id": "C96", "title": "The rules of a block are a set", "statement": "Repeating rules of a block, in any order and any number of times, does not change the values of the output variables, and raises no exception that was not raised before.", "quantifier": "all engines, all rule blocks, all lists of rules with the same members, all numbers", "why_tests_cant": "the tests have no engine with repeated rules; whether a repetition matters depends on the aggregation operator, the defuzzifier and the activation method at once", "anchors": ["src/term/Aggregated.cpp:67-83", "src/norm/s/Maximum.cpp:28-30", "src/activation/General.cpp:42-57", "src/activation/Threshold.cpp:158-173", "src/activation/Proportional.cpp:42-66", "src/Engine.cpp:297-350"]}
{"id": "C97", "title": "A disjunction is two rules", "statement": "Writing \"if A or B then C\" as the two rules \"if A then C\" and \"if B then C\", with the weight and the enabled flag of the original, does not change the values of the output variables, and raises no exception that was not raised before.", "quantifier": "all engines, all rule blocks, all rules whose antecedent is a disjunction of any two antecedents, all weights, all numbers", "why_tests_cant": "the tests never compare an engine with one whose rules are written differently; whether the two agree depends on four operators, the weights, the tolerance of the comparison with zero and the rounding of products", "anchors": ["src/rule/Antecedent.cpp:59-150", "src/rule/Rule.cpp:112-132", "src/rule/Consequent.cpp:55-74", "src/norm/s/Maximum.cpp:28-30", "src/norm/t/Minimum.cpp:28-30", "src/term/Aggregated.cpp:67-83", "src/term/Activated.cpp:43-56", "src/activation/General.cpp:42-57"]}
{"id": "C98", "title": "Rules that are not active can be deleted", "statement": "Deleting from the rule blocks of an engine rules that are not loaded, or whose activation degree in processing is not greater than zero, changes no output variable nor its fuzzy output, and raises no exception.", "quantifier": "all engines, all rule blocks, all activation methods, all sets of rules that are not active, all numbers", "why_tests_cant": "the tests compare each engine with one file of expected values; which rules are active changes from row to row, so that no row shows the effect of rules that are not", "anchors": ["src/activation/General.cpp:42-57", "src/activation/First.cpp:56-76", "src/activation/Last.cpp:72-94", "src/activation/Highest.cpp:61-84", "src/activation/Lowest.cpp:61-85", "src/activation/Proportional.cpp:41-66", "src/activation/Threshold.cpp:158-173", "src/rule/Rule.cpp:117-132", "src/Engine.cpp:297-350"]}
{"id": "C99", "title": "How one output variable is defuzzified concerns no other", "statement": "Changing the description, the range, the lock of the range, the defuzzifier, the default value, the previous value or the lock of the previous value of one output variable changes neither which rules are activated and triggered and with which degrees, nor the value, the previous value and the fuzzy output of any other output variable.", "quantifier": "all engines, all output variables, all settings, all inputs, all numbers", "why_tests_cant": "the tests never compare an engine with one of which a single variable is set up differently; variables are defuzzified one after another in the same pass, and rules and formulas can read output variables, so that influence of one on another cannot be excluded by examples", "anchors": ["src/Engine.cpp:297-350", "src/variable/OutputVariable.cpp:122-140", "src/rule/Antecedent.cpp:59-150", "src/rule/Consequent.cpp:55-74", "src/term/Function.cpp:379-394"]}
{"id": "C100", "title": "Names do not matter", "statement": "Giving other names to the variables and terms of an engine whose rules are loaded changes nothing but names: processing gives the same values, activation degrees and marks of rules, fuzzy outputs with the new names, and the same exceptions.", "quantifier": "all engines, all new names of variables and terms, all inputs, all numbers", "why_tests_cant": "the tests use one set of names for each engine; names serve as keys in grouping terms and evaluating formulas, and collisions show only for particular names", "anchors": ["src/term/Aggregated.cpp:126-158", "src/term/Function.cpp:379-394", "src/variable/Variable.cpp:72-74", "src/term/Term.cpp:30-32", "src/variable/OutputVariable.cpp:59-62", "src/rule/Antecedent.cpp:59-150", "src/rule/Consequent.cpp:55-74", "src/Engine.cpp:297-350"]}
{"id": "C101", "title": "The weights of rules under Proportional are relative", "statement": "Multiplying the weights of all rules of a block whose activation method is Proportional by a positive number changes neither the activation degrees of its rules, nor which of them are triggered, nor any output variable and its fuzzy output, and neither adds nor removes exceptions.", "quantifier": "all engines, all rule blocks with Proportional, all positive factors (one for each block), all weights and degrees including infinite ones and NaN", "why_tests_cant": "the tests use weights of one; a factor appears in every degree and in their sum, and whether it cancels depends on all weights and degrees at once, on division by zero and on rounding", "anchors": ["src/activation/Proportional.cpp:41-66", "src/rule/Rule.cpp:112-132", "src/Engine.cpp:297-350"]}
{"id": "C102", "title": "Averages lie between the constants", "statement": "An output variable whose terms are constants and whose defuzzifier is WeightedAverage gets a value between its smallest and its largest constant; it gets its default value only if no term was activated or a degree is infinite.", "quantifier": "all engines, activation methods, antecedents, weights (negative ones and those above one included), inputs and constants", "why_tests_cant": "that an average lies in the range rests on no activated degree being negative, which depends on every path by which rules are triggered, for all weights and inputs; tests see a few points, and rounding leaves the range only in the last bits", "anchors": ["src/defuzzifier/WeightedAverage.cpp:36-48", "src/rule/Rule.cpp:124-132", "src/rule/Consequent.cpp:52-74", "src/term/Aggregated.cpp:126-158", "src/variable/OutputVariable.cpp:122-140"]}
{"id": "C103", "title": "Values lie within the support of the fuzzy output", "statement": "If the terms of an output variable have positive membership only between two points and the fuzzy output has positive membership at some sampled point, the value found by an integral defuzzifier lies between these points.", "quantifier": "all engines, activation methods, antecedents, weights, inputs, terms, ranges, resolutions and integral defuzzifiers", "why_tests_cant": "the fuzzy sets of the tests are sampled at hundreds of points and wide; what a defuzzifier returns for a narrow set depends on how few sampled points fall into it", "anchors": ["src/defuzzifier/Bisector.cpp:32-63", "src/defuzzifier/Centroid.cpp:31-47", "src/defuzzifier/SmallestOfMaximum.cpp:31-48", "src/defuzzifier/LargestOfMaximum.cpp:31-48", "src/defuzzifier/MeanOfMaximum.cpp:31-51", "src/term/Aggregated.cpp:67-83", "src/variable/OutputVariable.cpp:122-140"]}
{"id": "C104", "title": "Allowing more rules only adds to the fuzzy output", "statement": "If First, Last, Highest or Lowest may trigger more rules of a block, the activated terms of every output variable are the former ones, in the same order and with the same degrees, followed by further ones. First with enough rules and Threshold with a comparison that all positive degrees pass do the same as General.", "quantifier": "all rule blocks, numbers of rules (negative ones included), thresholds, rules (also about output variables), inputs and exceptions", "why_tests_cant": "the methods interleave computing degrees with triggering rules that can change later degrees; that a greater number never changes what was triggered before depends on every rule, number and exception", "anchors": ["src/activation/First.cpp:56-76", "src/activation/Last.cpp:72-94", "src/activation/Highest.cpp:61-84", "src/activation/Lowest.cpp:61-85", "src/activation/General.cpp:42-57", "src/activation/Threshold.cpp:158-173"]}
{"id": "C105", "title": "Complementary thresholds divide the rules of a block", "statement": "If a rule block with General is replaced by two copies of it with Threshold, whose comparisons are complementary (< and >=, <= and >, == and !=) with the same threshold, the fuzzy outputs have the same activated terms up to their order, no new exception is raised, and the output values are the same.", "quantifier": "all engines, blocks (any number of them divided), rules about input variables, thresholds other than NaN, complementary comparisons, inputs and number formats", "why_tests_cant": "whether each rule is triggered exactly once depends on its degree, on how the tolerance of the comparison treats degrees close to the threshold, and on every combination of rules and blocks", "anchors": ["src/activation/Threshold.cpp:139-156", "src/activation/Threshold.cpp:158-173", "src/activation/General.cpp:42-57", "fuzzylite/Operation.h:654-672"]}
{"id": "C106", "title": "With enough rules every method but Proportional does the same as General", "statement": "If General is replaced by First or Last with at least as many rules as the block has and a threshold that all positive degrees reach, by Highest or Lowest with at least as many rules as the block has, or by Threshold with a comparison that all positive degrees pass, the fuzzy outputs have the same activated terms up to their order, no new exception is raised, and the output values are the same.", "quantifier": "all engines, blocks (any number of them changed), rules about input variables, numbers of rules and thresholds as stated, inputs, number formats and lawful priority queues", "why_tests_cant": "Highest and Lowest compute all degrees first and trigger the rules in the order of a priority queue, the others compute and trigger in turn; that the same terms are activated depends on every rule, degree, tie and exception", "anchors": ["src/activation/General.cpp:42-57", "src/activation/First.cpp:56-76", "src/activation/Last.cpp:72-94", "src/activation/Highest.cpp:61-84", "src/activation/Lowest.cpp:61-85", "src/activation/Threshold.cpp:158-173"]}
{"id": "C107", "title": "Rules of weight zero can be deleted", "statement": "Deleting rules that are not loaded and rules whose weight is zero or NaN from blocks with any activation method but Proportional changes no output variable and no fuzzy output, and raises no exception, whatever the inputs.", "quantifier": "all engines, inputs, activation methods but Proportional, blocks, rules (also about output variables) and number formats", "why_tests_cant": "First, Last, Highest and Lowest count rules, so that a rule that must not matter could take the place of another one; that it never does depends on every input, weight, degree (infinite ones included) and order", "anchors": ["src/rule/Rule.cpp:112-132", "src/activation/General.cpp:42-57", "src/activation/First.cpp:56-76", "src/activation/Last.cpp:72-94", "src/activation/Highest.cpp:61-84", "src/activation/Lowest.cpp:61-85", "src/activation/Proportional.cpp:41-66"]}
{"id": "C108", "title": "Adding variables does not change the others", "statement": "If input variables and output variables are added behind the variables of an engine whose loaded rules do not mention them, processing gives every output variable it had the same value, previous value and fuzzy output as before, and leaves rules and rule blocks in the same state; and rules that could be loaded are loaded as before.", "quantifier": "all engines, inputs, rules, activation methods, defuzzifiers, lists of added variables and number formats", "why_tests_cant": "the added variables and their values are arbitrary, and terms, formulas and defuzzifiers can reach all variables of the engine; tests add a few variables to a few engines", "anchors": ["src/Engine.cpp:297-350", "src/rule/Antecedent.cpp:64-150", "src/rule/Antecedent.cpp:196-200", "src/rule/Consequent.cpp:55-74", "src/term/Linear.cpp:35-54", "src/term/Function.cpp:379-394"]}
{"id": "C109", "title": "Adding terms to variables does not change the rules", "statement": "If terms of any kind are appended to the variables of an engine, rules that could be loaded are loaded as before, with the same variables and terms, and processing gives the same values, previous values, fuzzy outputs and states of rules as before, and no exception.", "quantifier": "all engines processed without an exception, inputs, rules, activation methods, defuzzifiers, lists of added terms (also with names in use) and number formats", "why_tests_cant": "the added terms and their names are arbitrary, and rules are tied to terms both by name, when loaded, and by reference, when processed; tests try a few of each", "anchors": ["src/variable/Variable.cpp:217-247", "src/rule/Antecedent.cpp:64-320", "src/rule/Consequent.cpp:55-216", "src/rule/Rule.cpp:158-239", "src/Engine.cpp:297-350"]}
