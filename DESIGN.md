# Formal model of fuzzylite — design

Source: `/repo` (C++), read as text; never built or run here.  Lean 4.33 and Mathlib, imported one
module at a time.  Nothing below adds an axiom.

## 1. Layers

* **Scalars.**  `fl::scalar` is a C++ `double`.  All code is modelled over a type class `Scalar S`,
  which only *names* the operations the code uses (`+ - * /`, `<`, `==`, `abs`, `sqrt`, `exp`, `log`,
  `pow`, `cos`, …) and the constants (`nan`, `inf`, literals).  The class has **no laws**.
  1. Theorems about control flow, parsing, state and histories are proved for *every* `S` with
     `Scalar S`, so they hold verbatim for IEEE doubles.
  2. Theorems that need only the order facts of IEEE comparison (NaN unordered, `<` a strict order,
     total on the rest) assume the law class `ScalarOrd`.
  3. Theorems about arithmetic are proved for `Ext ℝ`: exact real numbers with `nan`, `+inf`, `-inf` as
     distinct outcomes under the rules of IEEE 754 (`inf - inf = nan`, `0 * inf = nan`, `x / 0 = ±inf`,
     `0 / 0 = nan`, every comparison with NaN false).  Rounding, overflow, underflow and the sign of
     zero are **not** modelled at this layer.
  4. Theorems about rounding are proved for `Flt ρ`: numbers of a floating-point format `ρ`, in which
     every result is the exact one, rounded.  A `Format` is any monotone odd rounding that keeps 32-bit
     integers, 1/2 and doubles of moderate numbers.  `binary64` is the format of `double` with rounding to
     nearest even, including overflow and underflow; it is executable and proved to be a `Format`.  The sign
     of zero is not modelled, and functions of `<cmath>` are a parameter.  `Flt ρ` is an instance of
     `ScalarOrd`, so the theorems of item 2 hold for it.  What theorems need about `<cmath>` is a hypothesis:
     `sqrt` is rounded to a neighbour (`Root`, C66); `exp` is not negative and at most 1 for arguments up to 0, `cos`
     is between -1 and 1, powers of nonnegative numbers are nonnegative (`Elementary`, C83); these functions are
     defined where they should be (`Defined`); squares of numbers up to 5/8 are at most 1/2 (`Squares`).  A library
     that satisfies the last three is given (`easy`).
  5. `Ext ℚ` is executable and is used for the concrete examples, evaluated by the kernel
     (`decide +kernel`).
* **Tolerance.**  `fuzzylite::macheps` (1e-6) is a parameter (`Tol`); theorems hold for every positive
  tolerance unless they say otherwise.
* **Text.**  `std::string` is a list of characters.  Numbers in text: `ScalarText` names `Op::toScalar`
  and `Op::str`, without laws.  `LawfulText` and `LawfulInt` are the laws needed for round trips: the
  printed text is a non-empty run of characters other than blanks and separators, and it can be read;
  reading gives the *rounded* number, and printing that number again gives the same text.  Both are
  proved for rationals printed with three decimals (`Verif/Model/Decimal.lean`), so they can be met.
* **Errors.**  `fl::Exception` is the error branch of `Except Err`.  Kinds of exceptions are
  distinguished as far as callers depend on them; messages are not modelled.  Undefined behaviour is a
  separate constructor, `Err.ub`; it is never caught.
* **State after exceptions.**  Where an exception leaves an object changed (`process`, `configure`,
  rule loading, `defuzzify_v6`, benchmark runs), the function returns the state *and* the exception.
* **Pointers.**  Components are values.  Where the code compares addresses, a natural number stands for
  the address (`Activated.id`).  Memory is explicit in the model of `CloningFactory` and in `Model/Memory`, where
  objects are cells at addresses with the pointers they delete and the pointers they only use; there the
  numbers in objects are left out, and using a deleted object is undefined behaviour (no result).  The two
  models of loading are proved to agree (C85).
* **Standard library.**  `std::priority_queue` is the class `Heap` with the laws `LawfulHeap`: the
  elements come out as a permutation, and sorted if the comparison is a strict weak order.  Nothing is
  assumed about the order of equal elements.  `std::map<std::string, _>` is a sorted association list.

## 2. Files

* `lean/Verif/Model/*.lean` — the model, function by function; each definition cites file and lines.
* `lean/Verif/Lemmas/*.lean` — helper lemmas.
* `lean/Verif/Props/*.lean` — the property theorems by topic, with independent specifications and a
  concrete example next to each group.
* `MANIFEST.json` — theorems claimed for each property; `AXIOMS.md` — axioms of each of them.
* `seeded/LOG.jsonl` — wrong programs tried against the theorems.

### What is modelled

| source | model | not modelled |
|---|---|---|
| `Operation.h` numeric part | `Model/Op` | `random`-like helpers, `Op::increment` with negative counters |
| the type `double` | `Model/Rounded`, `Model/Binary64` | sign of zero, payload of NaN, rounding modes, `<cmath>` |
| `Operation.h` text part | `Model/Text`, `Model/DoubleText` | locale; characters outside ASCII are in no class |
| `src/norm/**` | `Model/Norm`, `Model/Term` | — |
| `src/hedge/*` | `Model/Hedge`, `Model/Term` | an engine attached to the formula of a `HedgeFunction` |
| `src/term/*` shapes | `Model/Shape` | — |
| `Discrete`, `Constant`, `Linear`, `Activated`, `Aggregated` | `Model/Term`, `Model/FuzzyValue`, `Model/FuzzyText` | an engine attached to a Linear term other than the one it is in; null terms |
| `Function`, `FunctionFactory` | `Model/Formula` | elements of arity 0, printing of trees other than infix, prefix and postfix; the update of the mutable map `variables` outside an evaluation (`Fun.membership_stateless` shows it cannot be observed) |
| `parameters()`, `configure()` of all terms | `Model/Parameters` | — |
| `src/defuzzifier/*` | `Model/Defuzzifier` | — |
| `src/variable/*` | `Model/Variable`, `Model/Configure`, `Model/FuzzyValue` | |
| `src/rule/*` | `Model/Rule`, `Model/Rendering` | the text `?` of a proposition without variable, which the loaders do not make |
| `src/activation/*` | `Model/Activation` | — |
| `Engine.cpp` | `Model/Engine`, `Model/Components`, `Model/Configure`, `Model/Status` | debug output, null components |
| construction, copying, assignment, loading and deletion of variables, rules, rule blocks and engines; containers and setters; `Engine::configure` | `Model/Memory` | the types of pointers; what norms, hedges and methods own (nothing in the library); exceptions of `new` and of `clone`; addresses are never used again |
| `Function::parse`, `Node::clone`, and construction, copying, assignment, loading and unloading of `Function` terms in memory | `Model/MemoryFormula` | the formula and the map of variables of the term; constants and variables are nodes with their token; the value of the evaluation after loading and its exception, which do not change the memory; in `Model/Memory` terms are single objects, without their trees |
| `ConstructionFactory.h`, `CloningFactory.h` | `Model/Factory` | `FactoryManager` (a record of factories) |
| `FllImporter`, `FllExporter` | `Model/Fll` | log messages |
| `FclImporter`, `FclExporter` | `Model/Fcl` | norms and defuzzifiers of classes made outside the library are written as classes of the library or not at all |
| `FisImporter`, `FisExporter` | `Model/Fis` | as for FCL; `std::queue` of the traversal is a list |
| `CppExporter` | `Model/CppExporter` | `toString` of hedges, which is not called |
| the C++ that `CppExporter` writes | `Model/Cpp` | everything else in C++: other texts are rejected; macros, trigraphs and the names of the C library other than `nan` |
| `JavaExporter` | `Model/Java` | — |
| the Java that `JavaExporter` writes | `Model/Java` | everything else in Java; what is executed are the statements of C++ with all names qualified, after checks for keywords and obscured classes |
| `RScriptExporter` | `Model/RScript` | the functions that write to files (they differ by the writer); variables are given by their positions |
| the R that `RScriptExporter` writes | `Model/RScript` | everything else in R: other texts are rejected; what plots look like, the conversion of columns to numbers, tables whose columns R would rename or fill |
| `Console::interactive` | `Model/Console` | the copy of the text on `std::cout`, settings of the terminal; messages of exceptions are a parameter |
| `Console::main`, `parse`, `process`, `usage`, `mamdani`, `takagiSugeno`, `hybrid` | `Model/Options` | what is logged.  Files are a function from names to contents; the output file is emptied when it is created, and two names are the same file if they are equal |
| `Console::benchmark`, `benchmarks`, `exportAllExamples`, all of `main` | `Model/Commands` | what is logged; what was written before an exception in an R script; a file that is read while it is being written is empty.  The clock, the numbers of `std::ostream` and the name of the library are parameters |
| `FldExporter`, `Benchmark` | `Model/Benchmark`, `Model/Data`, `Model/Results` | files; the clock (times are a parameter), and how `std::ostream` writes numbers in general and scientific notation (a parameter) |

Not modelled at all: `fuzzylite.cpp` (global settings), threads.

Simplifications are stated in the comment of the definition concerned.  The important ones:

* `Lowest`, `Highest`, `Proportional` compute all degrees before they trigger; the code interleaves both
  only in ways that cannot be observed there.  `General`, `First`, `Last`, `Threshold` do interleave in
  the model, because a triggered rule can change what later rules see.
* Integral defuzzifiers compute the samples first.
* `int` counters and `values - 1` do not overflow.
* After an exception in a benchmark run the remaining rows are zeros, as in the code.
* Null components (variables, rules, terms) do not occur.

## 3. Properties

Status, theorems and notes are in `MANIFEST.json`.  Conventions:

* A property that holds as stated is `proved`.
* A property that the code violates has theorems `…_violated`, which exhibit the violation on a concrete
  input, and theorems `…_partial`, which prove the property under the stated extra conditions, and often a
  theorem with the exact behaviour for *all* inputs.  It is `partial`.
* C01–C56 were given or written at the start; C57 to C109 were added as the model grew.

## 4. Where the code disagrees with the properties

All of the following are theorems unless marked *(remark)*.

**Tolerance.**  `Op::isEq` is not transitive (C01).  Identity of NilpotentMinimum and NilpotentMaximum,
associativity and duality of the Hamacher norms, the hedge Extremely at 0.5, membership degrees outside
`[0, h]` of Triangle, Trapezoid, Concave, SShape and ZShape, monotonicity of SShape, inverse of Ramp, and
the value of Discrete at a listed point are all broken within the tolerance (C07–C20).

**Rounding.**  In `double`, HamacherSum of 1 and 0.1 is 1.0000000000000002 and the hedge `not` of that is
negative.  BoundedDifference of 1 and 0.1 is greater than 0.1, AlgebraicSum of 1 and a degree may be less than
1, and the Einstein and Hamacher norms and AlgebraicSum are not monotone (C66).  MeanOfMaximum and Centroid
leave ranges whose bounds are neighbours, samples leave ranges of a few times the least positive number, and
Centroid of the range from 3/8 to 5/8 is 0 for tiny degrees.  The weighted average of three values 0.1 is greater than
0.1, and weighted results depend on the order of the terms (C72).  SShape and PiShape of neighbouring parameters above
2^53 are 2 at the end of the curve and ZShape is -1, because the middle is rounded to the end; Concave with a far
inflection is 1.0000000000000002, Discrete can be less than both ordinates, Gaussian is not a number at its mean
if its width underflows, and Ramp is not a number if its width overflows (C83).  `somewhat` of 1e-16 is 1e-8, DrasticProduct of 1 - 1e-7 and 1/2 is 1/2
and NilpotentMaximum of 1/2 - 1e-8 and 1/2 is 1, so that rules with these have degrees far from the exact ones (C86).
A Takagi-Sugeno engine whose only rule has a positive degree below the tolerance has no output (C87), and likewise a Mamdani engine (C88).

**Text.**  `validName` can return the empty name (C05).  `replaceFirst` drops the text after the first
occurrence and an empty pattern never terminates (C56).  *(remark)* Numbers with signed exponents such as
`1e-5` are split by the spacing of operators in formulas.

**Numbers.**  Numbers within one unit of the last decimal of zero are written as zero, not as the nearest decimal.  A narrow
triangle vanishes with three decimals.  With `setDecimals(1)` the FIS codes of `any` and of the next term are the same (C73).

**Aggregation.**  `removeTerm` returns a dangling reference (C22).  Terms are grouped by name, so two terms
of one name are merged (C38).

**Formulas.**  Texts that are not infix are accepted (C24).  The infix rendering writes no parentheses
(C25).  A term named like a function is not found in antecedents (C26).

**Rules.**  Antecedents in scrambled order load (C26, C29).  Hedges of a conclusion are applied again to
the following ones (C28).  The text of an antecedent is
written without the parentheses it needs, so it says something else and loads with another degree; its prefix and postfix
texts load as other antecedents (C81).  *(remark)* A term named like a hedge is shadowed by the hedge.  When
`Antecedent::load` throws, the lower half of the expressions on its stack is leaked, because the handler compares a counter with
the size of the stack it pops (C84); copies of an engine with such a rule leak as well.

**Formulas in memory.**  The stack of `Function::parse` holds plain pointers: every formula that is rejected after the first operand leaks all nodes made for it
(C89).  A copy of a `Function` keeps the engine of the original, and using it after the deletion of the engine is undefined (C89).  An `Element` may be registered
without operands; its node takes the top of a stack that may be empty (C89).

**Descriptions.**  Fuzzy sets with parentheses in the names of terms or a colon in their own have the description of other sets, and names without letters are
not written in the parameters (C91).

**Activation.**  First, Last, Highest and Lowest count disabled rules (C32, C33).  Proportional divides by
a sum that can be negative or zero (C34).  The order of rules decides which of them Highest and Lowest trigger when degrees are
equal, what antecedents about output variables read, and the last bits of sums (C92).  A rule with two conclusions is not two rules with
one conclusion each: a hedge in the first conclusion also changes the degree of the second, First, Last, Highest, Lowest count rules and Proportional
sums their degrees (C95).  Repeating a rule changes the outputs unless the aggregation operator is Maximum and the method decides about
each rule on its own; for weighted defuzzifiers this holds in exact arithmetic, or if rules are only repeated after their first time (C96).  A disjunction is not two rules unless disjunction and aggregation are Maximum; if the value of one variable is not
known (NaN), "if A or B" is never triggered, whereas "if B" is (C97).  A rule whose degree is NaN is not active, but Proportional adds it to the
sum of the degrees and then triggers no rule of the block at all; for all other methods rules that are not active could as well be deleted (C98).  The weights of the rules of a block with Proportional are relative only in exact arithmetic (C101).  A weighted average of constants lies between them in exact arithmetic only, and only if no hedge of a conclusion makes a degree negative: `not` does so for degrees above one, which weights above one give (C102).  `Bisector` returns the middle of the range, far from the fuzzy set, if only one sampled point has positive membership: the area on the left is then none or all at every point, so all sampled points are equally good bisectors (C103).  If no sampled point has positive membership, `SmallestOfMaximum`, `LargestOfMaximum` and `MeanOfMaximum` return points of the range at which the fuzzy set has no membership, where `Centroid` and `Bisector` return NaN (C103).  A block divided in two by complementary thresholds triggers no rule at all if the threshold is NaN, and may leave a rule out if its antecedent is about an output variable, since the degree is computed once for each comparison (C105).  `Highest` and `Lowest` compute all degrees before they trigger a rule, so that rules whose antecedents are about output variables see nothing of the rules of their own block, however many may be triggered (C106).  A rule of weight NaN silences all other rules of a block with Proportional, and the antecedent of a rule of weight zero is computed and may raise an exception (C107).  *(remark)* `struct Ascending`/`Descending` have different  Adding an input variable that no rule mentions changes the output of `Linear` terms, because their last coefficient is a constant only if there are more coefficients than input variables, and it replaces a variable of the same name that a formula was given by the user; an added input variable with the name of an output variable is found first when antecedents are loaded again, and a variable called `and` or `or` takes the operator away from all rules loaded afterwards (C108).
definitions in `Lowest.cpp`, `Highest.cpp` and `Variable.cpp`, which violates the one-definition rule.

**Variables.**  Changing the range or switching the lock on does not clamp (C40).  `lock-previous` restores
the value before the last one (C41).  The texts of fuzzy values are
ambiguous if names have blanks, and those of output variables merge terms of one name (C82).  Moving the axes of the variables
changes the outputs of engines with weighted sums or linear terms and, in double precision, of all engines (C93).  *(remark)* Only NaN triggers lock-previous; infinities do not.

**Engines.**  Processing depends on history if formulas mention output variables (C42).  An output variable whose defuzzification raises leaves the
output variables after it as they were, those before it are updated; the settings of an output variable otherwise concern no other unless a formula mentions it (C99).  Renaming variables or terms after
rules have been loaded changes nothing but names, except that weighted defuzzifiers merge terms of equal names, that formulas no longer find a variable under its old name, and that a new name may hide
a variable of a formula (C100).  Copies re-enable
disabled rules and lose weights set by the program (C44).  `isReady` detects connectives in the text of
rules only between spaces (C45).  Insertion beyond the end is undefined behaviour (C46).  The fuzzy
output of a copied variable points at the terms and the implication of the original, which dangle when it is deleted; objects added
or given twice are deleted twice, and a setter that is given the object it holds deletes it (C84).

**Kinds, configuration, sorting.**  `Engine::type` reports engines as inverse Tsukamoto that raise when they
are processed, and mixtures of Takagi-Sugeno and Tsukamoto outputs as inverse Tsukamoto instead of hybrid
(C62).  `Variable::sort` does not sort when a centroid is NaN, as for every term outside the range or when the
range is infinite, which is the default (C63).  An engine can be ready, have all its rules loaded, and fail
(C61).  *(remark)* `configure` by names leaks the operators made before an unknown name.  After
`configure` or `setImplication`, fuzzy outputs point at the deleted implication until the next `process` or `restart` (C84).

**Benchmarks and data.**  Error counts are −1 and means NaN when errors cannot be computed (C48).  Grid
export with no inputs, fewer than one value, or inactive locked variables (C52).  Engines with memory do not
reproduce their own data (C57, C58).  Data exported with another separator cannot be read, headers that
are numbers are read as data, and a header after a comment raises (C59).

**Factories.**  Registering a name twice leaks; registering one object under two names deletes it twice
(C49).

**Parameters and FLL.**  Function terms throw on an empty text, heights of Constant, Linear and Function
terms are not written, Constant reads beyond an empty list on blanks, and a failed conversion leaves a
term half configured (C53).  FLL loses: `activation: none` (read as General), heights that round to 1, blanks
in formulas, rules with `#`, formulas that mention later variables, norms given by functions, invalid
names, and descriptions of several lines (C51).  The importer (C67) takes `Engine:` anywhere, also inside
a component, and the last one names the engine.  It ignores words after the parameters of defuzzifiers and
activation methods.  Rules that do not load are kept.  A failed conversion empties a Linear term.

**FCL.**  The language does not carry descriptions, whether components are enabled, locked ranges, resolutions
and types of defuzzifiers, activation methods, and heights of Discrete terms.  Formulas lose all their blanks, so
operators that are words cannot be read back.  Discrete terms without pairs and terms with invalid names raise.
Variables of one name are merged, and rule blocks keep only the last word of their name (C68).  The line
`DEFAULT :=|` reads the front of an empty vector, `DEFAULT := 1 | NC | x` is accepted without the lock, and the
line `RULE` leaves the importer with `std::out_of_range`.
The importer reads more than the language (C69): the type of a variable may be anything, `DEFAULT := 1 | NC | NC`
drops the lock without an error, `::` counts as `:`, the keyword that closes another kind of block is an ordinary
word, and an engine may be named inside a block.

**FIS.**  The format has one block of rules, one defuzzifier and one aggregation, so engines with several of
these change; missing operators become minimum and maximum; descriptions, enabled flags, default values, locks,
heights, activation methods, resolutions and types of defuzzifiers are lost, and rules that are not loaded are
not written.  The hedges of a proposition are coded by the sum of fractions: `very not` is read as `not very`,
four times `somewhat` as `very`, and other combinations are rejected.  Of several propositions about a variable only one is
written, and those about output variables in antecedents are dropped.  Formulas with `,`, `:` or `=` cannot be read, and
blanks are lost.  The importer converts codes to `int` without checking them and dereferences a null pointer if
a term has no class; `std::out_of_range` escapes on two kinds of lines (C70).
The importer reads more than the format (C71): titles may continue with anything, a key of a term is anything that
begins with `MF`, several signs `=` in a line of the system are dropped, the connector of rules with one proposition
is not checked, and a last line of quotes only is lost where another one is an error.

**C++.**  With namespace prefixes, weighted defuzzifiers are written without prefix and infinite parameters as `inf`, so the
code does not compile.  Nor does it for parameters NaN, as those of new terms (`nan` is ambiguous), for texts with quotes or
several lines, for names with a full stop or that begin with a digit, for keywords, `engine`, names used twice, and for names of
classes that are needed later; texts with backslashes change.  Discrete terms without pairs leave an argument out, and their heights
are lost.  Linear terms are read with as many coefficients as there are input variables by then, and one more: fewer are undefined
behaviour, others are dropped.  Formulas of norms are lost, disabled rules are enabled, and rules that do not load raise (C74).

**JavaExporter.**  Infinite parameters of terms are written as `inf`, which C++ without prefixes accepts and Java does not; keywords
of Java are not avoided; a variable named `Discrete`, `Double`, `Function`, `Linear` or `Rule` obscures the class (C77).

**RScriptExporter.**  Texts with quotes end the text in R, backslashes are read as escape sequences, and names that fuzzylite accepts
need not be names of R (`2nd`, `_x`, `if`): the script does not run.  `toString(const Engine*)` casts the constness away and leaves the
input variables at the last point of the grid (C78).  *(remark)* The number of points is that for all input variables, although only
two are varied: 100 instead of 1024 with three of them.

**Benchmark results.**  In units other than nanoseconds the times of the single runs are not converted; `nrmse` is a mean weighted
with the inverses of the ranges and not normalised (for one output variable it is `rmse`); the mean of the squares is over the deviations
beyond the tolerance and not over the evaluations; numbers below a millionth are written as zero in scientific notation; the
row of a benchmark without expected values of the outputs has fewer columns than the header of the console (C79).

**Console.**  The interactive console defuzzifies the output variables a second time after `process`.  The values shown
differ from those of `process` if a formula mentions an output variable, and if previous values are locked (where the second
time makes up for C41).  `R` keeps the values typed, contrary to the help; `P` drops text that no blank follows; the text of `Q`
is never written; a blank ends the program by an exception if there are no input variables (C75).  The program creates, and so empties, the output file before it imports the
engine and reads the data: a conversion that fails, or an unknown format, loses the old contents, and data written to their own
file are read as nothing.  `-decimals nan` and `-values nan` convert NaN to an integer, which is undefined behaviour.  A single
unknown option is not reported as such (C76).  `benchmark` and `benchmarks` empty the output file first, too: written to the file of the
engine, the table is that of an empty engine, and nothing is reported; a negative number of runs is refused after that.  `benchmarks`
leaves out the end of the longer list without notice, and without runs the rows are shorter than the header.
`export-examples` passes over files that it cannot create and succeeds, rounds the sources to three decimals if they are the
targets, and writes Java files that do not compile (a semicolon is missing) (C80).

## 5. Trusted base

* The Lean kernel.  Axioms: `propext`, `Classical.choice`, `Quot.sound` at most; the axioms of each claimed
  theorem are listed in `AXIOMS.md`.  No `native_decide`, no `bv_decide`, no `sorry`.
* The reading of the C++ source: each definition cites the lines it stands for.
* Theorems over `Ext ℝ` are about exact arithmetic.  Theorems over every `S` apply to doubles.
* `ScalarOrd` for doubles: the comparison rules of IEEE 754, with the two zeros identified.
* `binary64` stands for `double`: that the compiler rounds every operation once, to nearest even, with no
  extended precision and no contraction, is assumed.  The theorems for every `Format` need less.
* `Format.Fine`, the bounds on the errors of rounding used by C72, and `Accurate`, used by C86 to C88, are proved for `binary64`.
  C86 takes the parameters and input values to be numbers of the format; it says nothing of `somewhat` and `seldom`,
  curved membership functions, and the rounding of texts to parameters.
* `Format.Root`: `std::sqrt` returns a neighbour of the exact root (IEEE 754 requires the nearest).
* Text of doubles: `std::ostream` in fixed notation and `std::istream >> double` round correctly, to nearest even,
  and `std::pow(10, -d)` is the double nearest to it, for 0 to 300 decimals (`Model/DoubleText`).  From this the laws
  `LawfulText`, `LawfulInt`, `PlainText` and `CodeText`, used in the theorems about FLL, FCL and FIS, are proved for `binary64`
  (C73); `CodeText` also needs exact `floor` and `fmod` (`Format.Whole`), which IEEE 754 provides.
* `Model/Cpp` is the meaning of a fragment of C++11 as far as the exported code uses it: names are looked up in the function's
  scope, then in `fuzzylite` if it is opened; `CppText`, that numbers with at least one decimal are floating literals read as
  `Op::toScalar` reads them, is proved for `binary64`.  That names of variables are not macros or reserved is assumed.
* `Model/RScript`: that the functions of R, ggplot2, gridExtra, grid and data.table called in the scripts do what the model says.
* `Model/Java`: that jfuzzylite has the classes and functions of fuzzylite under the same names, and that the escape sequences
  and number literals of the fragment mean the same in Java and C++, is assumed.
* `LawfulHeap` for `std::priority_queue`: the C++ standard.
* Undefined behaviour is found only where the model has it as an outcome: index out of range, use of
  invalidated references, dereferencing null or `end()`, double deletion, unpartitioned binary search.

## 6. Testing the theorems

Wrong programs are made by editing one definition of the model in a copy outside the repository, in the way
a programmer might err, and rebuilding.  A wrong program that all theorems accept shows that a theorem is
too weak; it is then tightened.  Each attempt is a line of `seeded/LOG.jsonl`.

## 7. Comparing the model with recorded results

`examples/` of the library has 39 engines with the texts and the data that a build of the library (6.0) wrote.  The scripts in
`conformance/` run the model on them; they are not part of the proofs.  The pinned source is later than those records.

* `data.txt` evaluates every engine with floats on the grid of `FldExporter`: 38 of 39 files are the same in every digit (36,000
  lines with nine decimals).  `mamdani/Laundry` differs because `MeanOfMaximum` and `OutputVariable::defuzzify` have changed
  since: the mean is that of all maxima, and an empty output is not skipped any more (src/defuzzifier/MeanOfMaximum.cpp:38-51,
  src/variable/OutputVariable.cpp).  The tests of the library leave that file out too.
* `texts.txt` imports and exports FLL, FCL, FIS, C++, Java and R, and interprets the C++ and Java: 369 of 390 texts are the same up to
  the number of the version.  The others: `Automatic` is not written any more in FLL (four files, four times each), and FIS loses what it cannot
  express in the five files that `Console::exportAllExamples` leaves out of its test.  The 39 scripts of R run with
  the recorded data.
