# Formal model of MiniZinc/libminizinc in Lean 4

`properties.jsonl` lists the properties, `MANIFEST.json` maps each one to the
theorems proved, `lean/` holds the model. `seeded/LOG.jsonl` records the wrong
programs the theorems were tested against.

## How the model is organised

Each topic has a directory `lean/Verif/<Topic>/` with

* `Model.lean`  – the code, function by function; every definition cites `/repo` file and lines;
* `Spec.lean`   – the small independent specification the theorems refer to (sets, orders, assignments…);
* `Lemmas.lean` – helper lemmas (not to be read as claims);
* `Props.lean`  – the property theorems and, beside each, non-vacuity examples.

Conventions of translation:

* C++ `long long`/`int` values are Lean `Int` with an explicit range test wherever
  the code relies on the range; an operation whose C++ meaning is undefined outside
  the range yields the distinct outcome `ub`. Bit-level code uses `BitVec`/`Nat` with
  explicit `mod 2^n`.
* Exceptions are an explicit outcome (`Res.err`).
* Pointers and heaps are maps from addresses; loops are structural recursion or
  recursion with a proved termination measure.
* Streams written with `operator<<` are lists of characters/bytes.

## Trusted base

* Lean 4.33.0's kernel, and the axioms `propext`, `Classical.choice`, `Quot.sound`
  (checked with `#print axioms`; nothing else is used). No `sorry`, no `native_decide`,
  no `bv_decide`, no added axioms.
* The reading of the C++ code recorded in the comments of each `Model.lean`.
  The C++ is not executed here.
* The C++ standard library is modelled by its specification (`std::sort` sorts,
  `std::stoi` follows strtol, `istringstream >> int` clamps and sets failbit, …).

## Plan per property

| id | modelled | method |
|----|----------|--------|
| C01–C04 | `IntVal` arithmetic in values.hh as functions into `ok/err/ub` over 64-bit ranges | refinement to `Int` / extended integers; counterexamples where the code deviates |
| C05–C09 | `IntSetVal` and the range iterators of iter.hh as functions on range lists (each iterator is its state machine `(current range, rest)`) | denotation `mem : Int → Prop`; induction on the streams |
| C10 | `limitDomain` & co | corollaries of C06 |
| C11 | `ComputeIntBounds` visitor as a recursive function over an expression type | induction on expressions; div/mod counterexamples |
| C12, C13 | `simplify_lin`, `constructLinBuiltin` | invariant of the merging loop; algebra |
| C14–C16 | pointer tagging, LocVec packing, Type word | bit arithmetic |
| C17 | `btSubtype`, `isSubtypeOf`, `commonType` | finite tables + case analysis |
| C18, C19 | `ArrayLit` compression, slices | list lemmas, mixed-radix arithmetic |
| C20–C22 | JSON tokeniser/array coercion | induction on nesting / characters |
| C23, C24 | printer + lexer/parser core | round trip by induction (C24: see the section below) |
| C25 | two-row dynamic programme | equality with recursive edit distance and with the minimum over edit scripts |
| C26–C30 | heap as finite maps; GC lists as linked lists | invariants over operation histories |
| C31, C32 | solns2out state machine | invariant: state after chunks = function of the concatenation |
| C33, C34 | base64, command line | round trip |
| C35–C37 | utils | order laws, digit arithmetic |
| C38–C42 | optimiser passes as rewrites on constraint lists | solution-set equality under all assignments |

Details, deviations between the code and the properties, and what is left out are
recorded per topic below as the model grows.


## Linear expressions (C12, C13, C43, C44) – `Verif/Linear`, `Verif/Dbl`

Modelled: `CmpExpIdx`, `simplify_lin` (both loops and the compaction, on an index vector of which
only the guarantee of `std::sort` is assumed), `constructLinBuiltin`, and
`flatten_linexp_binop<IntLit>` as a whole: infinite parameters, collection of both sides, constants,
unit coefficients with bounds and domains, equality of two variables, domain derivation for an
assigned variable, and the posted builtin. `double` arithmetic of `floorDiv`/`ceilDiv` is IEEE
binary64 rounding on the rationals.

Not modelled: the common-subexpression table, AST node and type creation, the float instantiation,
infinite literals inside `lin_exp` (the code raises an error for them).

Deviations found:
* `floorDiv`/`ceilDiv` lose precision beyond 2^53 (`C43_ceilDiv_wrong`, `C43_floorDiv_wrong`), and
  hence the derived domain can exclude a solution (`C44_tightening_loses_solution`).
* comparing two infinite parameters with `=` gives false for equal infinities; `C44_flatten`
  therefore assumes that at most one side is infinite.

## Integer values (C01–C04) – `Verif/IntVal`

Modelled: every arithmetic and comparison operator of `IntVal`, `pow`, `abs`, `plus`, `minus`.
Deviations found: `LLONG_MIN` as an operand of `*` or `/` makes the code negate it (undefined);
a finite number times an infinity on the right is rejected by a test on the wrong operand; `pow`
counts its iterations in an `int`. Not modelled: hashing, conversion to strings (`toIntVal`).

## Range streams, sets, printing, domains (C05–C10) – `Verif/Ranges`, `Verif/SetPrint`, `Verif/Domain`

Modelled: `IntSetVal::a` (from bounds and from values), the iterators `Union`, `Inter`, `Diff`,
`Bounded`, the queries of iter.hh, `operator<<` for sets, `LinearTraits<IntLit>::limitDomain` and the
intersection of domains. Not modelled: float sets; the arithmetic error at the two extreme 64-bit
values when `plus(1)`/`minus(1)` leave the range.

## Bounds (C11) – `Verif/Bounds`

Modelled: the whole visitor `ComputeIntBounds` as a machine on a stack of bounds, with the traversal
order of `BottomUpIterator`. Declarations are inlined at their uses; fixed expressions are represented
by their value; the evaluation of an array access is represented by the element found. Not modelled:
`compute_float_bounds`, `compute_intset_bounds` (its result is an input).
Deviations found: `mod` takes the remainders of the four corner combinations (misses interior values);
`div` replaces a zero bound of the *dividend* by ±1 and ignores divisors inside the range; a function
with a declared result domain leaves the bounds of its Boolean arguments on the stack, so an enclosing
operator reads the wrong operand.

## Constraint optimisers (C40, C41) – `Verif/OptCons`

Modelled: every function of lib/optimize_constraints.cpp and the dispatch. Arguments are literals or
identifiers; a fixed identifier is represented by its value. Not modelled: annotations of rewritten
calls; the debug-only assertion in `o_linear` (line 71) that dereferences the domain pointer of a
variable that need not have a domain.
Deviations found: the single-variable bound of `o_linear` is computed with `double`
(`C40_large_unsound`); `o_set_in` takes the minimum of an empty set (`C41_set_in_empty_ub`).

## Base64 (C33) – `Verif/Base64`

Modelled: the encoder and decoder state machines of thirdparty/b64 (`cencode`, `cdecode`) on byte streams,
`encode_base64`, `decode_base64`. Not modelled: line breaking (never enabled by the callers), zlib.
Deviation found: the decoder's range test on the character table is off by one
(`C33_decode_reads_behind_table`).

## Command lines (C34, C45, C46) – `Verif/CmdLine`, `Verif/Options`, `Verif/Utils`

Modelled: `parse_cmd_line`, `combine_cmd_line` (POSIX variants), `CLOParser::getOption`, `split`,
`beginswith`. The reading of a value from a string stream is a parameter of the model of `getOption`.
Deviations found: backslashes and newlines in arguments are not preserved (`C34_*_lost`); `split` pushes
the last word twice (`C46_split_repeats_last`).

## Small utilities (C35–C37) – `Verif/Utils`

Modelled: `parse_int` … `parse_unsigned_int` on top of `strtol`/`strtoul` in the C locale,
`itoa_async_safe` with its buffer, `basename_async_safe`, the loop of `dump_stack`, `SemanticVersion`.
Not modelled: signal handling itself.
Deviations found: `SemanticVersion::operator<`/`<=` compare component by component
(`C35_lt_not_an_order`, `C35_le_not_total`); `dump_stack` reads before the start of the stack when
fewer than 15 calls are on it (`C37_dump_stack_ub`).

## Strings (C25, C26, C47) – `Verif/Strings`

Modelled: `ASTString::levenshteinDistance` (both rows of the dynamic program), the interner
(`ASTStringData::a`, hash, key comparison with `strncmp`, `destroy` during sweeping) as a transition system
over objects in memory and table entries that point into them, and the operations on handles. Specifications:
sequences of single-character edits; reachability by arbitrary interning and collections; lexicographic order.
Simplified: the allocator is an arbitrary unused address; the hash table is a list of entries.
Deviations found: strings that differ only behind a zero byte and have the same length and hash code share one
object (`C26_zero_byte_collision`); `findLastOf` runs off the start of the string if the character is absent
(`C47_findLastOf_missing`), for instance for a model file name without a dot in the NL back end.

## Garbage collector heap (C27) – `Verif/GC/Heap*`

Modelled: `GC::Heap::allocPage`, `alloc`, `fl`, `freelistSlot`, `GC::alloc` and `GC::Heap::sweep` over pages,
node headers, free lists and counters. `malloc` is an arbitrary unused page; `sizeof(Item)` is a parameter
divisible by 8; `nodesize` is the size stored with the block. The specification speaks about live nodes
(address, size, contents) of every heap reachable by allocations and collections with arbitrary marks.
Counters are mathematical integers so that an underflow is visible; the assertions of the code are `ub`.
Deviation found: a node that has been allocated but never constructed when its page is given back
(`C27_abandoned_allocation_underflow`) is subtracted from the free counter although it was not counted.

## Marking (C27) – `Verif/GC/Mark*`

Modelled: `Expression::mark` for every expression class, `Item::mark`, the `mark` functions of strings, locations,
vectors and annotations, the root loop of `GC::Heap::mark`, and what `sweep` does with the `_flat` pointers of
declarations. Simplified: the `mark()` member of a registered container is an arbitrary sequence of strings,
locations, expressions and items; the recursion is bounded by a number that is shown to exist; marks that do not
depend on the traversal are set when the node is visited. Specification (`MarkSpec`): the pointer members of every
class and reachability over them. `C27_collect` joins marking and sweeping: a block is live after a collection iff it
was live and reachable. Deviations: the declaration of an operator call is not a root (`C27_operator_decl_not_kept`);
without a registered container the trail is not marked (`C27_trail_needs_container`).

## Trail, lock and handles (C28–C30) – `Verif/GC/Trail`, `Handle*`, `Weak`

Modelled: `GC::mark/trail/untrail`; `GC::lock/lockNoGC/unlock/trigger` and the threshold computed by
`Heap::trigger` (which of the two thresholds is chosen is a parameter; `alloced * 1.5` is exact); `KeepAlive` and
`WeakRef` with the doubly linked lists behind them, and the pass over the weak references. Specifications: copies of
the whole memory; number of locks held; handles as plain variables. Not modelled: `fixWeakRefs` of containers, node
weak maps, the circular list of containers, GC time-outs.
Deviations: an exception inside a comprehension leaves its mark on the trail (`C28_exception_skips_undo`); the newest
weak reference yields null, and if its node is freed it yields the freed node later (`C30_weakref_dangles`).

## Literals, locations and types (C14–C17) – `Verif/AST`, `Verif/Types`

Modelled: the unboxed encodings of integers and doubles in 64-bit pointers, bit for bit; `LocVec::a` and its accessors for
both pointer sizes; `Type::toInt/fromInt/cmp`, `btSubtype`, `isSubtypeOf` and `commonType`. Specifications: identity on
the stored values; `SameType`; `SubSpec`, a declarative subtype relation. Simplified: the tables of array types are two
arbitrary functions; tuples and records only by their identifier in `btSubtype`, and left out of `commonType`. Not
modelled: 32-bit unboxed literals, `arrType` for arrays of unknown dimension with an enumeration as element type (there the
code writes to the last element of an empty vector).
Deviations: `fromInt` keeps twelve bits of the type id (`C16_roundtrip_fails`); `bot` makes subtyping non-transitive and the
common type order dependent; `bool` is a subtype of every enumeration even when enumerations are strict
(`C17_bool_enum`), so the common type of a boolean and an enumeration is not the least one; a variable set and an array
get a common type to which the set cannot be coerced (`C17_common_upper_fails`).

## Array literals and array builtins (C18, C19, C48, C49) – `Verif/Arr`

Modelled: `ArrayLit` with its three representations (plain vector, vector with compressed prefix, slice of another array), all its
constructors, `dims/min/max/length/size/operator[]/set/make1d`, `eval_arrayaccess`, and the builtins `arrayXd` (both forms),
`array1d`, `concat_index_k`, `select_from_index_k` and `slice`. Specification (`Arr/Spec`): an array is a list of index sets and a
list of elements in row-major order; `rank` is the row-major position and is shown to be a bijection. `Wf` is the invariant
every constructor establishes; `IsArr` lists everything the interface shows. Simplified: sizes are exact numbers except in
`arrayXd`, where the 32-bit arithmetic is modelled; `Expression::equal` is any relation that implies equal meaning; the
flag `flat` is left out.
Deviations: `set` on a compressed array overwrites the whole prefix (`C18_set_fails`); `make1d` on a slice reads two elements
past the vector of bounds (`C19_make1d_fails`); `array2d({}, 1.., [])` divides by zero, sizes multiplying to 2^32 are accepted
for an empty array, bounds beyond 32 bits are cut off (`C48_reshape_fails`); `arrayXd(x, y)` does not compare the numbers
of elements (`C48_list_fails`); `select_from_index_1(x, 5..infinity)` on three elements gives an array of length -1
(`C49_select_fails`).

## String literals, identifiers and JSON tokens (C20–C23, C50) – `Verif/Lex`, `Verif/Json`

Modelled: `Printer::escapeStringLit` and the string states of the lexer, with the generated scanner's longest-match rule;
`Printer::quoteId` and the lexer's rules for words and quoted identifiers; `JSONParser::readToken` byte by byte, including
what `num_get` of libstdc++ accepts; the flattening loop of `JSONParser::coerceArray`. Specifications: RFC 8259 elements
(`Json/Spec`: `Elem`, with Lean's own UTF-8 encoder), decimal value of a digit string, rectangular nestings (`Rect`).
Simplified: bytes are characters below 256; float tokens keep their text (the conversion to `double` is not modelled);
positions in error messages are left out.
Deviations: a string with a carriage return or NUL does not survive printing (`C23_cr_fails`, `C23_nul_fails`); the identifiers
`_`, `infinity` and `variant_record` are printed without quotes (`C50_fails`); surrogate pairs of even-numbered planes are
decoded wrongly because the plane bit is or-ed (`C21_pair_iff`); `\b`, `\f`, `\r` are not decoded and malformed `\u` escapes
are accepted; integers beyond 32 bits are clamped silently (`C22_clamp_fails`); empty inner lists lose dimensions
(`C20_empty_fails`) and objects are taken for lists (`C20_object_fails`).

## Literals in the source (C51, C52) – `Verif/Lex/StrSem`, `Verif/Lex/Num`

Modelled: the escapes of string literals (same lexer model as C23), the three conversion functions of integer literals with
their overflow checks, and the rules of the grammar that fold a minus sign into a literal. Specifications: `LitSrc`, a
grammar of literals with the bytes each element denotes; the positional value of a digit string. Not modelled:
float literals. Deviation: an escape that denotes NUL cuts the literal short (`C51_nul_fails`).

## JSON data files (C53) – `Verif/Json/Parse`, `ParseSpec`, `ParseProps`, `ParseFails`

Modelled: the whole recursive-descent reader of JSON data (`parseModel`, `parseExp`, `parseObject`, `parseArray`, `parseSet`,
`parseEnum*`, `coerceArray`) on top of the token reader of C21/C22. Specification (`ParseSpec`): JSON values as a data type,
the tokens of a value (`toks`), texts spelling a token sequence with arbitrary white space (`Spells`), and the expression a
value means for a declared type (`TopMeans`, `Means`). Simplified: declared types are base types, enumerations, sets and
arrays of these; floats keep their text; a step counter bounds the recursion and the theorem shows that the text's length
suffices. Deviations: missing and repeated commas are accepted, booleans in an integer set are dropped
(`C53_accepts_fails`); `{}` and `1e+5` are rejected (`C53_rejects_fails`); `{"i": 1}` uses an uninitialised pointer
(`C53_enum_object_fails`).

## C54 — `showJSON`

Modelled: `b_show_json_with_type` and `b_show_json_basic` (`lib/builtins.cpp:2541-2696`) for fixed
values, in `Verif/Json/Show.lean`.  The row loop of multi-dimensional arrays is modelled with its
counter vector, its opening and closing brackets and its running element index; reading an element
that does not exist is undefined behaviour.  The specification is a separate function `toJ` from values to JSON
values (an array is nested lists, row-major) together with the JSON spelling relation of C53.
Proof: the counter loop is shown to be equal to the recursive nesting by induction on the number of
dimensions (`showLoop_merge`, `showLoop_one`), then the text is shown to spell the JSON value.
Not modelled: floats, enumeration values, annotations, unfixed values.
Deviations: an array with a zero extent that is not first or last is read out of bounds
(`C54_empty_fails`); infinite set bounds are printed as `infinity`, which is not JSON
(`C54_infinite_fails`).

## C24: operator expressions, printed and parsed

`Verif/Syntax/Model.lean` models three programs on one expression type: the plain printer
(`lib/prettyprinter.cpp:35-121`, `:296-771`), the lexer for operators, numbers and words
(`lib/lexer.lxx:163-463`) and the LALR parser for operator expressions (`lib/parser.yxx:303-321`, `:1356-1608`,
`:1724-1732`, `:2405-2432`).

* Bison's conflict resolution is modelled as an explicit stack of frames: with an operator as the next token, a
  rule of higher precedence is reduced, at equal precedence a `%left` rule is reduced and a `%nonassoc` one is an
  error, otherwise the operator is shifted.  That the generated tables implement this documented resolution is
  trusted.
* `Spec.lean` gives the value of an expression under any interpretation `Alg`, sorts, and `Clean`, the list of
  trees for which the text is safe.
* `LexProps.lean` proves that the text of a clean tree lexes to its tokens; `ParseProps.lean` that those tokens
  parse to `norm e`, by induction over the tree, generalised over the stack and over the tokens that follow.
  The tables of the printer and the parser differ (`intersect`, `++`, unary operators); the sorts rule out
  the combinations where the difference would matter.
* `Roundtrip.lean` has the theorems and six counterexamples (`C24_*_fails`), all found by the proof attempt.

Not modelled: annotations, `let`, `if`, comprehensions, array access, set and array literals, strings, floats,
Unicode spellings of operators, `default`, backquoted operators.

## Solver output (C31, C32, C55, C56), `Verif/Solns/`

* `Model.lean` models `Solns2Out::feedRawDataChunk`, `evalOutput`, `printSolution`, `evalStatus`, `evalStatusMsg`,
  `evalOutputFinalInternal`, `flushStatistics` and `createInputMap` of `lib/solns2out.cpp`.  The state is the
  unfinished line, the text of the current solution, the set of solutions, the counters, the status and everything
  that was written.  What the output model prints for a solution, the solution checker, the JSON statistics
  and `resolveAssumptionCore` are parameters: the theorems hold for all of them.
* Simplified: `--output-time` is off; the report of a checker goes to the same stream as the solutions; the
  counters of nodes and failures are left out; exceptions stop the run (as in `process.hh`).
* `Props.lean` reduces a run to a fold over characters, so that chunks do not matter (C31).
* `History.lean` contains a specification in terms of lines (`effective`, `texts`, `statusOf`, `firsts`) and
  proves C32 by induction over the lines, and by invariants for runs that end with an exception.
* `Interactive.lean` models `Solns2OutInteractive`; the eager output is related to the run without eager output
  by a simulation relation (C55).
* `Core.lean` models `resolveAssumptionCore` (C56).
* Found: a NUL character ends a chunk (`C31_nul_fails`); `--canonicalize` prints all solutions again for every
  status message (`C32_canonical_repeat_fails`); the begin marker behind a prompt, or with a carriage return,
  is recognised or not depending on the chunks (`C55_prompt_fails`, `C55_carriage_return_fails`).

## C39: Boolean constraints in the optimiser, `Verif/BoolOpt/`

* `Model.lean` models, for a flat model of Boolean items, phases 1 to 4 of `optimize` (`lib/optimize.cpp:470-1168`),
  `simplify_bool_constraint` (`:1826-2158`) and `unify` (`:244-390`).  A model has domains, right hand sides that are
  literals, items (constraints, and declarations with any other right hand side), redirected variables, and the
  failure flag.
* `Spec.lean`: assignments and solutions.  A redirected variable is still part of the assignment; it equals its target.
* `Props.lean`, `Steps.lean`: one equivalence for each kind of step.  `Run.lean`: steps on any item in any order
  (`Step`), the invariant that a variable has at most one right hand side, and runs of all phases (`Run`).
* Simplified: arrays are inlined (`follow_id`); items are never shared; the count of open literals is arbitrary;
  the queues, which only select steps, are replaced by any order; `EnvI::fail` sets a flag.
* Found: the top-level conjunctions and identifiers that phase 1 puts into a list are removed after phase 3 without
  looking at them again.  This is wrong for literals in the conjunction, for a variable that is unified after it was queued,
  and for one that another constraint fixes to false.  All three are theorems (`C39_*_fails`).

## C57: equalities, inequalities and `bool2int` in the optimiser, `Verif/IntOpt/`

* `Model.lean` models `simplify_constraint` (`lib/optimize.cpp:1310-1787`) for `int_eq`, `bool_eq`, `int_le`, `bool2int`
  and for the verdicts of `OptimizeRegistry`, and `SubstitutionVisitor::subst` (`:1209-1237`).  The state is the domain
  and the right hand side of every variable; the item is a constraint or a declaration.
* `Spec.lean`: an assignment satisfies the declarations; `Before` and `After` are the solutions before and after the
  step.  The meaning of all other calls is a parameter.
* `Props.lean`: each case is an equivalence `After ↔ Before`; `C57_defined` excludes undefined behaviour;
  `C57_domains` keeps the domains in normal form and not empty, which the next step needs.
* Simplified: a declaration without occurrences stays instead of being removed; no floats, sets, annotations, queues.
* Found: `bool2int(b, 5)` is removed and fixes `b` to false instead of failing (`C57_bool2int_constant_fails`); for a
  variable with a definition of its own, `bool2int(b, x)` with a known `b` replaces the definition by a literal
  (`C57_bool2int_defined_fails`).

## C42: chain compression, `Verif/Chain/`

* `Imp.lean` models `ImpCompressor`, `Le.lean` models `LECompressor` (`lib/chain_compressor.cpp`).  The state is the list
  of items and the multimap; one definition is one iteration of the loop.  `VarOccurrences` is replaced by the number of
  items that contain the variable.
* The specification is in the same files: solutions, the projection on the variables to be kept (`Extends`), and what a
  sound multimap is.  A declaration in positive context stands for an implication.
* `ImpProps.lean`, `LeProps.lean`: a counting argument (the items stored under the variable are among those that contain
  it, and the numbers agree) shows that the variable occurs nowhere else; then solutions are transferred item by item.
  Soundness of the multimap is an invariant of clean runs.
* Simplified: aliases and arrays are resolved, unused declarations stay, no `int2float` aliases, integers only.
* Found: a clause can come to hold a variable twice and is then processed after its removal (`C42_imp_duplicate_fails`);
  a control variable that is also another argument (`C42_imp_control_fails`); `y → y` makes the loop hang
  (`C42_imp_loop_fails`); an inequality is stored under a variable whose coefficient has become negative, so that solutions
  are lost (`C42_le_sign_fails`).

## C38: occurrences of variables, `Verif/Occ/`

* `Model.lean` models `VarOccurrences`, the visitors that maintain it, `flatAddItem`, `flatRemoveItem`,
  `remove_deleted_items`, the unification of variables (without domains) and the two ways in which a constraint is
  changed.  An item is the list of the identifiers in it; a pointer to an item is its index.
* `Spec.lean`: an item uses a variable; the operations as a relation `Step`; reachable states.
* `Lemmas.lean`: one specification for both removal loops, by induction over a number of steps that is shown to suffice
  (identifiers in the model plus waiting variables).  `Steps.lean`, `Unify.lean`: each operation keeps "every occurrence is
  recorded", and "nothing else is recorded" if nothing is dropped without being unregistered.
* Simplified: `varIsFree`, `is_output` and `can_remove_fzn_vardecl` are parameters of each operation; identifiers in
  annotations of declarations are not modelled (they are registered by `flatAddItem`, but `flatRemoveExpr` visits only the
  right hand side).
* Found: the right hand side of a variable that is assigned to an identifier is set to null before the unification, so the
  item stays registered for ever (`C38_alias_fails`); `replaceCallArgument` forgets occurrences in the other arguments
  (`C38_replace_argument_fails`).

## C58 Evaluation of parameter expressions (`Verif/Eval`)

`Syntax.lean` is a typed syntax (indexed by `int`, `bool`, `set of int`) for the parameter
expressions; overloading has been resolved by the type checker. `Model.lean` follows `eval_int`,
`eval_bool`, `eval_intset`, `eval_array_lit`, `eval_comp`, `eval_call`, `check_par_domain` and the
built-ins they call, with the exceptions (`ResultUndefinedError`, other errors) and undefined
behaviour as outcomes; integers use the checked `IntVal` operations of C01–C04 and sets the range
lists of C05–C08. `Spec.lean` is an independent denotational semantics over mathematical integers
and `Finset Int` (relational semantics: `none` is undefined and becomes false in the nearest Boolean
expression); user-defined functions are given by an interpretation that fulfils their defining
equations. `Fits.lean` says, on the level of that semantics, when an evaluation stays in 64 bits.
Theorems: `C58_eval_sound` (a value stands for the meaning, "undefined" is only reported for
undefined expressions), `C58_eval_complete` (no error and no undefined behaviour if nothing leaves
the range), `C58_bool_never_undefined`, `C58_iterate_max_fails` (the deviation at `LLONG_MAX`).
Method: mutual structural induction over the syntax, induction over the call depth.
Not modelled: floats, strings, annotations, optional types, enums, tuples/records, several
dimensions (see C18, C19), `infinity`, lazy evaluation of global right-hand sides, generators that
run over an array literal with undefined elements (the C++ program evaluates them lazily).

## C59, C60 Flattening of Boolean constraints (`Verif/BoolFlat`)

`Syntax.lean` is the specification: Boolean source expressions and their value, items, flat calls,
declarations, constraints, and `Sat`, the solutions of a flat model (a declaration annotated
`ctx_pos` implies its right-hand side when half-reification is enabled, every other one equals it).
`Model.lean` follows `flat_exp`, `flatten_unop`, `flatten_binop`, `flatten_bool_op`,
`flatten_call` (`forall`, `exists`, `clause`, predicates, `bool2int`), `flatten_id`, `bind`, `conj`,
`remove_dups`, `contains_dups`, `cse_result_change_ctx` and `addCtxAnn`, with the declarations and
their context annotations, the table of common subexpressions and the failure flag as state.
`Basic.lean` has the invariant (introduced variables refer to earlier ones only; every entry of the
table has the value of its call) and what the primitive updates do; `Bind.lean`, `Clause.lean` and
`Meaning.lean` show for every function that it adds exactly the condition "the target has the value
of the expression, negated if the context says so". `Props.lean`: `C59_same_solutions`,
`C59_solutions_kept`, `C59_solutions_sound`, `C59_failed_unsat`. Method: induction over the depth of
recursion (the size of the expression), the canonical extension of an assignment by recursion over
the index of the introduced variables.
Not modelled: types other than Boolean (integer terms and predicate arguments are opaque), optional
types, if-then-else and let, user-defined operators and reifications, redefinition of operators by a
solver library, `array_bool_and`-style rewriting of the finished flat model.
Deviations found (`C60_half_reified_quantifier_fails`, `C60_half_reified_declaration_fails`,
`C60_half_reified_xor_fails`): flatten_call.cpp 434–449 dualises a quantifier under negation without
turning its context; a Boolean declaration with a right-hand side is not annotated, so a later
positive use makes it half-reified; flatten_binop.cpp 2081–2146 uses the context before negation.
Also seen: `cse_result_change_ctx` (flatten.cpp 6136–6137) pushes the null pointer `redirect`
instead of the argument.

## C61 Overload resolution

Modelled (`lean/Verif/Overload/`): the table of the overloads of one name (`Model::registerFn`, `addEntry`), its order
(`FnEntry::compare`), the checks of redeclarations (`exact_redeclaration`, `ambiguous_named_call`, `same_parameter_names`), the
subtype test with enumerations of arrays (`EnvI::isSubtype`), and the two searches (`matchFn` by types, and by a call with the filling
of defaults and arguments of type `bot`). `std::sort` is a relation: the result is a permutation of the table, and it is sorted if the
comparison is a strict weak order on the table; if it is not, any permutation is possible (the C++ standard even makes it undefined).

Specification (`Props.lean`): `Accepts` (arguments fit the parameters, the others have defaults), `AtLeastAsSpecific`, `MoreSpecific`.

Proof: under `NoMix` the comparison is the lexicographic order of lists of numbers (`compare_iff`), hence a strict weak order. An
invariant of registration (`TInv`) says which declarations are in the table. The search without defaults takes the first match, and a
strictly more specific overload is sorted before; with defaults the search keeps a minimal candidate, for which "at least as specific"
has to be transitive (`C17_trans`).

What fails, with witnesses:
* The comparison is cyclic: `array[int] of E` before `array[$T] of int` before `E` before `array[int] of E`. With `f(bool)`,
  `f(array[$T] of int)`, `f(E)`, `f(array[int] of E)` declared in this order a call with an `array[int] of E` takes the general overload.
* A predicate `f(E)` without a body is replaced by a definition `f(F) = ...` of another enumeration, because `operator==` of types
  ignores the enumeration; a call `f(e)` is then rejected.

Not modelled: polymorphic functions, tuples and records, named arguments (`matchFnNamed`), calls that already have a declaration.

## C62 Names, scopes and the order of declarations

Modelled (`lean/Verif/Scope/Model.lean`): `Scopes` (stack of scopes, `find` with its jump from a top-level scope to the global one),
`TopoSorter::checkId` and `run` (positions −1/k, visits of global declarations on demand, annotations visited twice), the visit of the
items (`TSV1`), and the final sort (`SortByPayload`, `Sorted.lean`). The recursion through global declarations is bounded by a number that is
shown never to be reached if it is at least the number of global declarations.

Specification (`Spec.lean`, `Props.lean`): `uses Γ e`, the identifier occurrences of an expression with the declaration given by an environment
that is extended by every scope; `Dis`, no scope declares a name twice; `Closed`, `Refers`, `Acyclic`.

Proof: `Sound.lean` keeps an invariant (positions are indices into the list; a finished declaration has all its uses bound, at smaller
positions; the lookup through the stack of scopes is the environment). `Complete.lean` shows that the outcome is a success or the report
of a reason that holds: a global declaration in progress reaches by references whatever is visited, so meeting it again is a cycle; a
local one in progress is larger than the expression under visit, so it is never met again. Declarations are different objects
(`Distinct`), which is how the parser makes them.

What fails: calls are not followed into the bodies of functions, so `int: x = f(); function int: f() = x;` is accepted
(`C62_function_cycle_fails`).

Not modelled: warnings (shadowing), enumerations at the top level only, numbered identifiers, assignment items, `ignoreUnknownIds`,
captured annotations, include items in the sort, the sort of the declarations of a `let` before its constraints.

## C63 Functions on parameter arrays and sets (`Verif/Builtin/Arrays.lean`, `Sets.lean`, `Intersect.lean`)

Modelled: `b_int_min/max`, `b_arg_min/max_{int,float,bool}`, `b_sort_by_{int,float}`, `b_sort`, `b_inverse`, `b_set2array`,
`b_set_sparse_inverse`, `b_array_union`, `b_array_intersect` and `b_set_to_ranges_int` of lib/builtins.cpp, on evaluated arguments.
The functions for different element types are one definition with the comparison as an argument; theorems hold for every strict weak
order (`Weak`: on floats, no NaN). `std::stable_sort` and `std::sort` are represented by `List.mergeSort`; the theorems determine the
result, so that any conforming implementation gives the same one. `array_intersect` is modelled with its jumps, a counter bounding the
rounds; sets there are lists of finite ranges, and the overflow of `max + 2` (and the exception for infinite bounds) is not modelled.

Proved as stated: `C63_arg_min`, `C63_arg_bool`, `C63_min`, `C63_sort_by`, `C63_sort`, `C63_set2array`, `C63_sparse_inverse`,
`C63_array_union`, `C63_set_to_ranges`. Deviations found:

* `C63_sort_by_fails`: with more keys than elements `sort_by` reads beyond the end of the array (the lengths are not compared).
* `C63_inverse_fails`: the index is computed as `unsigned int`, so an array with negative indices gets entries near 2³²; the index set of
  the result is cast to `int`. `C63_inverse_partial` excludes these.
* `C63_array_intersect_fails`: the iterator over the first set is never advanced, so that after the first stretch the search can jump back
  and repeat for ever: `array_intersect([{1,3,5}, 3..5])` does not return. `C63_array_intersect_partial` covers first sets that are one range.
* Not stated as a theorem: `sort` and `sort_by` are declared to return an array with the index set of their argument but return one
  indexed from 1.

## C64 Formatting (`Verif/Builtin/Format.lean`)

Modelled: `b_show_int`, `b_show_float`, `b_format`, `b_format_justify_string` on bytes; the text of a number for a given precision is an input
(the digits come from the C++ library). `int` casts, the negation of an `int` and the conversion of the maximal length to `size_t` are part
of the model. Deviations (`C64_fails`): `max_length < 0` compares an unsigned number, so a negative maximal length is accepted and the text is
not cut; widths are reduced modulo 2³²; the width `INT_MIN` is undefined; lengths are in bytes, so a UTF-8 character can be cut in two.

## C65 Domains of results (`Verif/Builtin/OpBounds.lean`)

Modelled: `b_compute_div_bounds` (with the iterator `Ranges::Diff` of C06), `b_compute_mod_bounds`, `b_compute_pow_bounds`, on the `IntVal`
arithmetic of C01–C04 with its errors. The bounds of the operands are inputs (their soundness is C11). Proved: every defined result of
values within the bounds is in the computed set. The float versions are not modelled. Finding (`C65_pow_overflow`): the ends of the bounds are
raised to the power in checked arithmetic, so that large bounds make the flattening fail with an overflow error.

## C66 Equality, order and hash values of expressions; common subexpressions (`Verif/ExprEq/`)

`Model.lean`: expressions as trees with 24 kinds of nodes, `Expression::equal`/`equalInternal` and `Expression::compare`. Every node carries an
arbitrary stored hash value. `Props.lean`: the specification is a compositional meaning (`Sem`) in an arbitrary type; equal expressions mean the
same (`C66_equal_sound`, induction over both trees). `Order.lean`: `compare` is a total preorder, by an encoding of expressions as words that are
compared lexicographically. `Hash.lean`: the `rehash` functions; nodes that are equal part by part have the same hash. `Cse.lean`: the map of results
with insertion (also of the converse entry for negations), search, removal, garbage collection, normalisation of commutative calls; invariant over
all histories (`Reach`).

Simplifications: pointer comparisons (identical pointers are identical trees); redirected identifiers are given by their target; slices of
arrays; `std::sort` is any function that permutes; contexts (the caller of `cseMapFind` decides whether a result may be used in its context) are not
part of it. In-place changes of nodes in the map are allowed as long as the meaning stays the same.

Deviations found:

* `C66_equivalence_fails`: an identifier without a declaration is equal to any identifier of that name, so equality is not transitive.
* `C66_order_fails`: `compare` compares set literals of different representations by representation in one case only and is not transitive across them.
* `C66_compare_zero_fails`: `compare` is 0 for arrays with different index sets and for calls of different declarations.
* `C66_equal_compare_fails`: equal identifiers (same flat variable, colliding hashes) are not 0 under `compare`.
* `C66_hash_fails`: two identifiers of one flat variable are equal part by part, but have different hash values and so are not equal.
* `C66_remove_fails`: `cseMapRemove` does not normalise calls of functions with `promise_commutative`, so they are never removed, and a constraint
  that is flattened again (flatten.cpp 4930–5030) is taken to be done already.
* Not stated as theorems: `com_sort` (ast.cpp 985–1013) dereferences a null pointer for set literals that are not evaluated; `0.0` and `-0.0` are equal, so
  that the compression of arrays can turn one into the other; results that are unboxed literals are dropped at each garbage collection.

## C67 Conditional expressions (`Verif/Ite/`)

`Model.lean`: `flatten_ite` with `get_conjuncts`, `classify_conjunct`, the splitting at the root, the loop over the conditions, the bounds posted for
integer results (`flatten_dom_constraint` at the root, with the range iterators of C06), and the library predicates `if_then_else` and `if_then_else_partiality`. All is
considered under one assignment of the flat variables; what `flat_exp` returns for a condition or branch (value, definedness, bounds) is an
input that is assumed to be right (`FlOk`, `FArm.Ok`). `Props.lean`: the predicates, the loop, the bounds. `Split.lean`: the splitting (invariant over the
loop: what a branch requires is what its rows and its remaining entries require) and the theorem about conditional constraints.
`Struct.lean`: `ite_struct_split` with field accesses as values.

Not modelled: bounds of floats and sets (analogous), annotations, the identifiers that are equal to the result variable, dummy values.

Deviations found:

* `C67_struct_fails`: line 106 reads `then_decl[i]` for `then_decl[j]`. For a nested tuple in field `i` a vector is read beyond its end if there are
  at most `i` `then` branches; otherwise all branches get the value of one.
* `C67_opt_fails`: the bounds of the branches that are not `<>` are posted for an optional variable that has a domain; if the intersection is empty or
  a single value, solutions in which the variable is absent are lost.
* Not stated as a theorem: an equation `x = o` with `x: var int`, `o: var opt int` is split without a look at the types.

## C68 Array access with variable indices (`Verif/Access`)

Modelled (`Access/Model.lean`): `flatten_arrayaccess` (lib/flatten/flatten_arrayaccess.cpp 23–379): the separation into fixed and
variable indices, the loop with the explicit stack that collects the slice, the evaluation of accesses with fixed indices only, the
composition of `a[b[i]]`; and the functions `element`, `element_t`, `element_mt` of the standard library for one to six dimensions
and for optional indices, down to the FlatZinc constraint `array_*_element`. On top of the array literals of C18.

Specification: `position` (the index tuple, `<>` replaced by the minimum), `Defined` (all absent, or in the index sets), `Value`,
`Right` (what constraints have to be in the root context and in others).

Proof: the stack of the loop is always `0, …, k`; by induction on the number of remaining dimensions, the loop started with minima in
dimensions `k…` adds the elements of these dimensions in row-major order (`runs_all`); positions in dimensions 2 to 6 are the rank plus
one (`ring`); the constraints with `element_mt` have one solution for every index.

Deviations found (both proved on the model):
- `C68_slice_fails`: with `array[1..2,1..0,1..0] of var int: a`, the access `a[1,x,y]` never ends (the index of the second dimension is
  increased until it is equal to the maximum, which it is greater than from the start).
- `C68_absent_fails`: `a[<>, x]` with a variable `x` is `a[min, x]`; `anyAbsent` is only looked at if all indices are fixed.

Not modelled: names for other element types, ranges of sets as indices (slices with `..` are C18), `eval_int` of absent elements in
composition (an error), `min` of an empty index set in the library functions for three and more dimensions.

## C69 Comprehensions (`Verif/Comp`)

Modelled (`Comp/Model.lean`): the type checker's splitting of where clauses into conjuncts, the search for the declaration each of them is
moved to, including assignments on the way, and the construction of the new generators (lib/typecheck.cpp 2412–2558); the separation of
where clauses into fixed and variable conjuncts and the three rewritings of generators over set variables (lib/flatten/flatten_comp.cpp
42–289); the evaluation of generators and of indexed comprehensions with 32-bit indices (include/minizinc/eval_par.hh 160–411).
Expressions are functions of the values of the declarations with the list of declarations in them (`LocalTo`); everything is considered
under one assignment of the model's variables.

Specification (`Comp/Spec.lean`): `bindings`, the values of the declarations in order, as nested loops over tuples; `Scoped`, static scoping.

Proof: generators are unfolded into a sequence of declarations with the conditions after them (`items`, `flat`); a condition may be moved to
any place after the last declaration in it (`flat_same`); `latest_ok` shows that the place found by the type checker is one. For flattening
the bindings of the new generators that satisfy the conditions agree pairwise with the bindings of the old ones on the old declarations
(`trans_ok`). For indices, the positions are the ranks modulo 2^32, so that the only effect of large indices is on the index sets.

Deviations found (proved on the model):
- `C69_set2iter_fails`: if `set2iter` has a body the new generator gets `orig_where[i]` before it is set; fixed conjuncts are lost.
- `C69_sum_fails`: `sum (i in 1..2 where x[i]) (a[i])` with fixed `a` becomes a sum of products; an undefined `a[i]` makes it undefined even
  if `x[i]` is false.
- `C69_index_fails`: indices are cast to `int`: `[4294967297: 5]` has the index set `1..1`.

Not modelled: undefinedness and errors in where clauses and in the sets of generators (a set that depends on earlier declarations is
evaluated although a variable condition that was moved out of its way may be false), comprehensions of sets, slices of tuples.

## C70 Included files (`Verif/Incl`)

Modelled (`Incl/Model.lean`): `canonicalFilename` (lib/parser.cpp 58–78), the work list of `parse` with the first file, other files and
libraries, the check for cycles in the parent chain, companion files `….deprecated.mzn` (lib/parser.cpp 106–290), include items
(lib/parser.yxx 489–510), `ItemIter::run` (include/minizinc/model.hh 568–620) and `~Model` (lib/model.cpp 86–95). The file system is a
structure of functions; models are numbered in the order of their creation; loops have fuel and termination is proved.

Specification (`Incl/Spec.lean`): `Includes` and its closure `Reaches`, `Openable`, and `Matches`, the items of a model as those of a file.

Proof: an invariant (`Inv`) of the work list with a model being parsed: `seen` has exactly the models but the first, each model is pending
or finished, parents include their children. Termination: the files of all models but the first are different and in the finite set. A
cycle found in the parent chain goes through the first file, because all other file names are different. A second invariant (`Own`), also
with companions: each model but the first has one owning include item, in an earlier model; the deletions are counted by owners.

Deviations found (proved on the model):
- `C70_companion_fails`: a companion is put on the stack twice and parsed twice into the same model.
- `C70_alias_fails`: an absolute name is used as it is, so the same file by another absolute name is loaded again.
- `C70_root_fails`: the first file is not in `seenModels`; a further file that includes it loads it again.
- `C70_cycle_fails`: a cycle is an error only if it goes through the first file.

Not modelled: models given as text, FlatZinc and data files, syntax errors (an include item being parsed when the parser gives up).

## C71 Let expressions (`Verif/Let`)

Modelled (`Let/Model.lean`): `flatten_let` (lib/flatten/flatten_let.cpp 16–136) with local integer variables (right-hand side, optional
domain), local Boolean variables (flattened in mixed context), local variables without a right-hand side, local constraints, the conditions
`cs`, the saving and restoring of `VarDecl::flat`, and the error about free variables; around it a small language (comparison, `+`, `div`,
`not`, `/\`, `\/`, `<->`) flattened with contexts, a negation flag and definedness.

Specification (`Let/Spec.lean`): a relational meaning. An integer expression has a set of values (empty: undefined), a Boolean expression is
true if some values of its parts make it true. The flat model is a list of definitions and posted atoms; `Ok` is a solution.

Proof: by mutual induction, four statements for each expression: in contexts that are not negative a solution of the flat model in which the
result is true gives the truth (`sound`); in negative and mixed contexts truth forces the result in every solution (`exact`); solutions
extend to ones with the result true if the expression is true (`yes`) and false if it is false (`no`, not for expressions at root).

Deviation found (proved on the model): `C71_empty_fails`, an empty domain of a free local variable makes the whole flat model
unsatisfiable although the let may be under a disjunction.

Not modelled: `promise_total`, `promise_monotone`, `promise_antitone`, integer contexts, locals with array, struct and optional types.

## C72 Calls of user-defined functions (`Verif/Call`)

Modelled (`Call/Model.lean`): the part of `flatten_call` for functions and predicates with a body (lib/flatten/flatten_call.cpp 740–787,
1092–1138, 1263–1360): arguments from last to first, the map for common subexpressions, domains of parameters and results, the parameters
as declarations that are changed in place and restored, `promise_total`; `conj` with its simplifications (lib/flatten.cpp 3645–3725). Around
it a small language (`+`, `div`, parameter expressions, conditionals on parameters, lets, comparisons, connectives). The number of nested
calls is bounded by fuel; theorems are about all bounds.

Specification (`Call/Spec.lean`): a functional evaluator, also with fuel (`C72_meaning`: the fuel does not matter); parameters are bound in a
new environment per call. `Prog.Fine`: bodies mention their parameters and variables of the model, `promise_total` is true.

Proof: each expression is flattened correctly if calls are (`flatI_spec`, `flatB_spec`), with the values of declarations in scope as an
environment; calls are flattened correctly by induction over the fuel (`callI_ok`, `callP_ok`), with an invariant (`Inv`) that says that each
entry for a common subexpression is right in all solutions of the flat model.

Deviations found (proved on the model):
- `C72_cse_fails`: `ret.b` in the entry contains the definedness of the arguments. `f(let { var int: z = 10 div y } in w)` makes a later
  `f(w)` undefined for `y = 0`.
- `C72_total_fails`: the body of a `promise_total` function is flattened in root context also if the arguments may be outside of the domains
  of the parameters.

Not modelled: arrays, optional types, functions without a body, reified versions, annotations, negated and integer contexts.

## C73 Scheduling and packing constraints (`Verif/Globals`, `Verif/Sched`)

`Globals/Base.lean` is the vocabulary for the decompositions in share/minizinc/std: an array is an index range and a function; a predicate
is the relation on the values of its arguments; local variables are existential; `bool2int`, `min`, `max`, `sum` over finite sets. The
`lb(·)`/`ub(·)` that steer a decomposition are parameters of the model, and theorems assume only that they enclose the values. A predicate
whose `assert` can fail is `Option Prop`.

Modelled (`Sched/Model.lean`): cumulative (wrapper with its disjunctive branch, `fzn_cumulative`, time and task decompositions, reified and
optional versions), cumulatives (event decomposition, optional version), disjunctive, disjunctive_strict and optional versions, diffn in four
forms, bin_packing, bin_packing_capa, bin_packing_load, their optional versions and the reified bin_packing.

Specification (`Sched/Spec.lean`): a task runs at `t` if `s ≤ t < s + d`; at every time (in ℤ) the sum of the resources of the running tasks is
within the bound; no cell (in ℤ^k) is covered by two boxes; the load of a bin is the sum of the weights of its items.

Proof: for cumulative, the load at a time is bounded by the load at the latest start not after it. For cumulatives (negative resources and
lower bounds) the load at a time is the load at the latest event (start or end) not after it on that machine. For diffn two boxes with
positive sizes and no separating dimension share the cell of componentwise maxima.

Deviations found (proved on the model):
- `C73_cumulative_reif_fails`, `C73_cumulative_opt_fails`: the task decompositions add `r[j]` for the task itself without looking at its
  duration; a task of duration 0 needs the resource if (and only if) the horizon exceeds 5000.
- `C73_cumulative_negative_fails`: with a negative capacity the disjunctive branch accepts tasks of duration 0, `fzn_cumulative` rejects.
- `C73_disjunctive_empty_fails`: `disjunctive([], [])` stops with an evaluation error.
- `C73_opt_index_fails`: optional `cumulatives` and `bin_packing*` abort unless the arrays are indexed from 1.
- `C73_bin_packing_opt_dummy_fails`: a present item in bin `max(index_set) + 1` is accepted as absent.

Not modelled: geost, span, alternative, redundant/implied-only constraints, solver-specific libraries (share/minizinc/*/; the interfaces to Geas and Gecode are in C89 and C92).

## C74 Counting constraints (`Verif/Count`)

Modelled (`Count/Model.lean`): all_different (integers, exceptions with and without domains, sets, optional elements), all_equal, the `count`
function with its new variable, count_eq/geq/gt/leq/lt/neq, at_least, at_most, exactly, among, distribute, the global_cardinality family
(counts or bounds; open or closed; reified; optional; sets) with its wrappers and their asserts, nvalue (also optional), at_most1,
all_disjoint, partition_set, sum_set, int_set_channel.

Specification (`Count/Spec.lean`): the number of positions with a value (`occ`, `occOpt`, `occSet`). `Right` says that a predicate that may
abort gives the specified truth value, and aborts only where the specification is false.

Deviations found (proved on the model):
- `C74_gcc_fails`, `C74_gcc_low_up_closed_fails`: `length(xs) >= sum(count)` and `length(xs) in sum(lower_bound)..sum(upper_bound)` are implied
  only if the cover values are pairwise different, which is not required.
- `C74_gcc_low_up_closed_fails`: the optional closed form aborts for an empty cover.

## C75 — ordering, precedence and symmetry breaking constraints (`Verif/LexOrd`)

Modelled: `lex_less_std_decomposition`, `lex_lesseq_std_decomposition` (`stdlib/stdlib_internal.mzn`) with the
wrappers `lex_less`, `lex_lesseq`; `lex_chain_less`, `lex_chain_lesseq`, `lex2`, `strict_lex2`, `increasing`,
`strictly_increasing` (integers, Booleans, sets, optional integers, the reified optional form), `value_precede` and
`value_precede_chain` (integers, sets, optional integers), `seq_precede_chain` (integers, sets), `var_perm_sym`,
`var_sqr_sym`. The element type of the lexicographic constraints is any linear order.

Specification (`LexOrd/Spec.lean`): `List.Lex` on the list of elements; "every later column is larger"; "if an element
is `after`, an earlier one is `before`"; "least under the permutations"; the symmetries of the square are generated by
a quarter turn and a mirror image.

Proof: the Booleans `b[i]` are the comparison of the suffixes (downward induction); the running maximum passes through
every value below it; repeated values of an order can occur neither by the specification nor by the decomposition;
the eight rows of the square's matrix are closed under composition.

Deviations of the code from the documentation, proved:
* `strictly_increasing([])` and `increasing` of an empty array of sets are not satisfied: `min(index_set(xs))` is
  undefined, there is no guard as in `fzn_increasing_int`.
* `var_perm_sym` compares quotients of pairs of listed permutations: a list of one permutation imposes nothing.
* `value_precede` on optional elements replaces absent elements by 0 when no element can be 0, also when 0 is `before`.
* `seq_precede_chain` gives its running maximum the domain `lb..ub`, but its value is at least 0: unsatisfiable when all
  values are negative. The set version takes the maximum of a possibly empty set.
* `value_precede_chain` of an empty array is an error (`lb_array`).

Not modelled: the versions for floats beyond their order, `lex_chain_lesseq_orbitope`.

## C76 — extensional constraints (`Verif/Ext`)

Modelled: `regular` (integer alphabet, range of symbols, index sets), its reification (direct and augmented automaton),
`regular_nfa`, `cost_regular`, `mdd`, `mdd_reif`, `mdd_nondet`, `cost_mdd`, `table` (any element type, optional values)
and `table_reif` for one to five variables.

Specification (`Ext/Spec.lean`): acceptance by recursion on the list of values (deterministic, nondeterministic, with
costs); a path of a diagram by recursion on the list of values, following edges; layered, deterministic and full
diagrams; rows of a table.

Proof: the guessed state array is a run (induction on the length, any state type); for diagrams the nodes reached along
the values from which the rest leads to the true node satisfy all constraints, and a deterministic diagram reaches at
most one node per level; for `cost_mdd` the distances are built by recursion on the level, and edges that are not taken
weigh more than any path.

Deviations of the code from the documentation, proved:
* `fzn_regular_set` has no case for the empty sequence: `regular` over a set of symbols that does not start at 1
  rejects it.
* `regular` and `regular_nfa` over index sets renumber the states from 1 but keep the index set of the matrix: wrong
  unless the states start at 1.
* The augmented automaton of the reified `regular` is unsatisfiable if a variable takes a value that is no symbol.
* `cost_mdd` with negative costs: the domain of the distances need not contain 0. With a dangling node: minimum over
  no edge. (Its constraint T23 names `to[e]` twice; shown harmless.)
* `table` on an array without elements is not satisfied.

Not modelled: `regular` with a regular expression, `fzn_table_bool_reif` (same shape as the integer version).

## C77 — graph constraints (`Verif/Graph`)

Modelled: `subgraph`, `dreachable`, `reachable`, `connected`, `dconnected`, `dtree`, `tree`, `steiner`, `dsteiner`,
`weighted_spanning_tree`, `d_weighted_spanning_tree`, `dpath`, `path`, `bounded_path`, `bounded_dpath`, `dag` (versions
with numbered nodes and with index sets), `circuit`, `subcircuit`, `circuit` over optional successors.

Specification (`Graph/Spec.lean`): the selected nodes and edges are finite sets; reachability is the reflexive
transitive closure of a step along a selected edge; a rooted tree has exactly one edge into every node but the root; an
undirected tree is connected with one edge less than nodes; a path is built inductively from its end by adding a new
node and an edge; a circuit is a map whose iterates lead from any node to any other.

Proof: shortest distances exist and are smaller than the number of selected nodes (so the domains are large enough), and
parents with decreasing distance give reachability; one edge per node and the number of edges leave no room for a second
edge into a node, for a self loop at the root or for parallel edges (the constraint marked redundant in `fzn_dtree` is
needed); an undirected tree is directed away from its root along shortest distances; two trees in opposite directions
are a path by removing the source; longest walks of an acyclic selection solve the equations of `dag`; a cycle is
numbered by the distance from its first node, the remaining nodes of a `subcircuit` behind it.

Deviations of the code from the documentation, proved:
* `circuit` of a single node is not satisfiable.
* `dag` has no `subgraph` constraint: an edge may start at a node that is not selected.
* `dconnected` asks for one node from which all others are reached: neither strong nor weak connection.
* `connected` and `dconnected` reject the empty selection of nodes (part of the specification here).
* `weighted_spanning_tree` and `d_weighted_spanning_tree` without numbers constrain nothing if there are no edges.

Not modelled: reified versions (they abort), `array1d` renumbering of edges not starting at 1 in the last two.

## C78 — channelling, sorting, arguments, writing, sums (`Verif/Chan`)

Modelled: `inverse`, `inverse_in_range` (with the strengthening by cardinalities), its reified version, `inverse` of
optional variables, `inverse_set`, `link_set_to_booleans`, `int_set_channel`, `symmetric_all_different`, `range`,
`roots`, `sort`, `arg_sort` (predicate and function), `arg_max`, `arg_min`, `arg_val` with their Boolean, optional, weak
and float versions, `write`, `writes`, `writes_seq`, `sliding_sum`, `sum_pred`, `network_flow` with cost, `knapsack`,
`piecewise_linear` with its non-continuous version.

Specification (`Chan/Spec.lean`): mutually inverse arrays; the same number of occurrences of every value and increasing
order; first index of a greatest element; the last write to an index counts; sums over sets of indices; points on a
segment by a parameter in [0, 1].

Proof: the weights `n * x + (u - j)` of `arg_max` are pairwise different and ordered first by value; a stable sorting
permutation exists (sorting the pairs of value and index) and is unique (well-founded comparison of the first
difference); prefix sums; the balances of a flow sum to 0, so the early test excludes nothing; 0/1 variables with sum 1
select one piece.

Deviations of the code from the documentation, proved:
* `arg_val` of optional values loses the index set: the answer is a position counted from 1.
* The predicate `arg_sort` accepts any "permutation" of one element, and more entries than elements.
* `arg_max_weak` aborts if all elements are the absent literal; `arg_max` of optional values answers with the first
  index if all are absent.
* `writes` promises to be total, but two different values for the same index have no result.
* `sliding_sum` of an empty array is false; `sum_pred` aborts unless the sets are indexed from 1; `knapsack` without
  items aborts; `piecewise_linear` through one point has no solution.

Simplified: floats are a linear order or the rational numbers; bounds (`lb_array`, `lb`) are arbitrary sound bounds. Not
modelled: domain bounds of flows over no arcs, `fzn_arg_min_float` (same shape as `fzn_arg_max_float`).

## C79 — linearised domain constraints (`Verif/Mip`)

Modelled: from `lib/MIPdomains.cpp` the interval sets (`insert`, `cutOut`, `intersect`, `cutDeltas`, `Base.lean`), the
groups of linked variables (`put2VarsConnection`, `Clique.lean`), the graph of equations, its propagation and the choice
of the reference variable (`addArc`, `propagate2`, `doRelate`), and the whole of `doProcess` for integer variables
(`Model.lean`): projection of domains and constraints, the tests, new ranges, an existing equality encoding
(`syncWithEqEncoding`), splitting into single values, new 0-1 variables, and the linear constraints of `implementPOSTs`.

Specification (`Mip/Spec.lean`): what the constraints `b <-> x <= c` etc. say of an assignment of integers, when an
assignment satisfies domains, and when it satisfies linear constraints together with values of the new variables.

Proof: interval sets are lists of separate intervals, with the points they contain as meaning; every end of an interval
is an integer, or the integer next to it is not the value of the reference variable (so rounding and casts of ends do no
harm); the cut around an end of a projected set removes only values that are not images of integers; exactly one new
variable is 1, and it is the one of the subinterval with the value; the flags collected for a set sum to 1 or 0. Cliques:
invariant over the sequence of equations. Propagation: invariant of the depth first search.

Simplified: doubles are rational numbers. Hypotheses: coefficients are multiples of one `1 / q` with `q < 100000`
(without this the tolerance `INT_EPS` is wrong), flags have the domain `0..1` and are not linked to the group.

Deviations of the code, proved:
* With `x = 200000 y`, `b <-> x >= 1` becomes `b = 1` (`C79_small_coefficient_fails`).
* With `2 x = 3 y`, `b <-> x = 4` fails an assertion instead of giving `b = 0` (`C79_fractional_equality_fails`).
* A flag already fixed to 1 whose constraint is false gets the domain `0..0` (`C79_flag_overwritten_fails`).
* `x + x = 2` is reported as an inconsistency (`C79_self_connection_fails`).

Not modelled: float variables (with `aux_float_lt_zero_iff_1`, whose comparison code is not handled by the switch of the
projection), half-reified constraints, `findOrAddDefining`, `syncOtherEqEncodings` (an empty function in effect).

## C80 — comparisons, Booleans and linear constraints in the linear library (`Verif/LinLib`)

Modelled: every predicate of `share/minizinc/linear/redefs_lin_halfreifs.mzn`, `redefs_lin_reifs.mzn`,
`redefs_lin_imp.mzn`, `redefs_bool_reifs.mzn`, `redefs_bool_imp.mzn` and the equality encoding of
`domain_encodings.mzn`.  A variable is a finite set with a value in it (`V`), a float variable a pair of rational bounds with
a value in between (`F`); the arithmetic of expressions carries the bounds along.  A predicate is a proposition about the
values; a new 0/1 variable is an existential quantifier.  `Opts` are the options of `options.mzn`.

Proof: for each predicate a lemma `…_iff` (integers, Booleans) or `…_sound` and `…_complete` (floats), by cases along the
code; the big-M cases by arithmetic.  `Props.lean` states the meanings.

Found and proved: with `fPostprocessDomains` and `fPostproDom_DIFF` the predicates `float_lin_ne_reif` and
`float_lin_ne_imp` pass `not b` where `b` is meant (`C80_float_lin_ne_reif_fails`, `C80_float_lin_ne_imp_fails`), and
`bool_lin_eq_reif` stops with an assertion (`C80_bool_lin_eq_reif_fails`); `int_lin_eq_reif` does so with
`fAvoidNI` and `fAuxIntEqOLD00` (`C80_int_lin_eq_reif_fails`).

Not modelled: the predicates without a body (they stand for their meaning), infinite domains, floating-point rounding.

## C81 — Arithmetic, element and membership in the linear library (`Verif/LinArith`)

*Modelled*: `share/minizinc/linear/redefinitions.mzn` 63–240, 242–328, 379–516, 548–576, 584–685 (absolute value, minimum and
maximum with their cuts, division and remainder, product, element, membership in a constant set), the equality encodings for two
variables and for arrays of `domain_encodings.mzn`, and the minimum and maximum of `redefinitions-2.0.mzn`.  Variables are those
of C80: a finite domain and a value in it.  A constraint is the set of values for which new variables exist that satisfy what the
library posts; the options are parameters.

*Simplified*: `set_in__POST`, `set_in_reif__POST`, `fzn_int_times` and the products inside the division mean what their names
say.  The options `fElementCutsXZ` and `fMinimumCutsXZ` are constants `false` in the library, so their cuts are left out.
`int_pow` is not modelled.

*Proof*: each constraint is equivalent to its relation.  The domain given to the quotient holds the quotient, by monotony of the
division in each argument; quotient and remainder are unique.  An equally spaced array is an affine function by induction.  The
two-dimensional encoding is determined by its marginals.  The subintervals of a set are treated by induction on its sorted list.

*Deviations*: `C81_int_times_fails` (the product of two `0..1` variables is posted as a conjunction, which accepts `0 * 0 = -1`
when the result may be negative), `C81_float_div_fails` (`float_div` alone accepts a divisor zero).

## C82 — Global constraints in the linear library (`Verif/LinGlob`)

*Modelled*: the files `share/minizinc/linear/fzn_*.mzn` for all_different, alldifferent_except_0, inverse (with the reified and
in-range forms), circuit, subcircuit, cumulative, if_then_else, lex_less, lex_lesseq, lex_chain_lesseq, table, sliding_sum and
regular, and `bool_clause_reif` of `redefinitions-2.0.mzn`.  Variables are those of C80.  The domains that a constraint narrows before it
looks at them again are narrowed in the model (`selfMapped`, `dom1`, `dom2`, `dom3`).

*Specification*: that of the standard library's constraints (`Count.Spec`, `Chan.Spec`, `Graph.Spec`, `Sched.Spec`, `LexOrd.Spec`,
`Ext.Spec`), so C74–C78 and C82 together say that the two libraries agree.

*Proof*: 0/1 encodings count.  In a circuit the order numbers increase along the successors except into one node, so every node
reaches that node; what a permutation carries into an orbit lies on the orbit.  For the converse the distance from the first node
satisfies the inequalities.  The flags of a lexicographic comparison form a chain that breaks at the first difference.  The passes
over the states of an automaton lose no state of an accepting run (induction forwards, backwards and forwards again), and both
decompositions of a step say that the transition is taken.

*Simplified*: `circuit__SECcuts` and the solver's `cumulative` with fixed durations are assumed to mean what they say.  The option to
ignore redundant constraints is off.  `subcircuit_wDummy.mzn` and the redundant cuts for the solver are not modelled.

*Deviations*: `C82_inverse_reif_fails` (true for an empty and a non-empty array), `C82_subcircuit_fails` (a successor outside the
index set is accepted), `C82_cumulative_fails` (a task of duration 0 counts in the task decomposition), `C82_lex_fails` (a proper
prefix is not less).

## C83 — Eliminating set variables (`Verif/NoSets`)

*Modelled*: `share/minizinc/std/nosets.mzn`: the arrays of Booleans, their reverse map and every redefined set predicate and function
with its reified and half-reified form.  A set variable has a finite upper bound, a value below it and a flag that says whether it is
a constant; only constants have a non-empty lower bound, as in `lib/builtins.cpp`.

*Specification*: `Finset` operations; `SetLess` compares the increasing sequences of elements (`C08` for constants).

*Proof*: the Booleans are determined by the value (`isBits_iff`), so each predicate becomes a statement about the value; index sets
contain the value.  The chain of the order is read downwards: its element at `i` compares the elements from `i` on
(`chain_iff`).  The functions are shown to have exactly one result for all arguments.

*Simplified*: an access outside of the index set is false, by the relational semantics that C58 and C68 are about.  Unbounded sets,
the unused two-argument `set2bools` and the search annotations are not modelled.

*Deviations*: `C83_order_le_reif_fails` (`b <-> (s <= t)` leaves `b` free when the upper bound of `s` is empty).

## C84 — Cut generators of the MIP interface (`Verif/MipCuts`)

*Modelled*: `SECCutGen` and `XBZCutGen` of `solvers/MIP/MIP_solverinstance.cpp` with `CutDef` of `MIP_wrap.hh`: the checks of the point,
the undirected graph, the thresholds, the terms of the cut and its violation.  The minimum cut algorithm is a parameter; `none` is
the exception of a build without Boost.

*Specification*: `IsCircuit` (every node is reached from every node) and `Point` (the 0/1 matrix of a successor function);
`MinCutSpec` is the contract of the minimum cut.

*Proof*: a circuit leaves every proper set of nodes, so the flow out of it is at least 1.  With the assignment constraints as much
flows in as out, so a minimum cut of at most 1.999 violates its inequality by at least 0.0005.  The orbit of a node that does not reach
all others is a cut of weight 0.  `C84_circuit` puts this into `C82_circuit`.  The choice of each element in an element cut minimises
its contribution, so the generated cut is the most violated one.

*Simplified*: rationals instead of doubles.  The registration of the generators and the callbacks of the solvers are not modelled.

*Deviations*: `C84_sec_abort_fails` (small positive values are left out of the graph, so the generator can throw at a fractional
point); `MinCut::solve` is declared static, so that a build with Boost would not compile: `C84_sec_not_compiled` is the behaviour of
the code as it is.

## C85 — Option types (`Verif/OptTypes`)

*Modelled*: the pair of variables that stands for an optional variable (`opt_internal_int`, both settings of `mzn_absent_zero`), and the
bodies of the operators on optional variables and parameters in `stdlib_compare.mzn`, `stdlib_logic.mzn`, `stdlib_math.mzn`,
`stdlib_array.mzn` and `stdlib_internal.mzn`, with `fzn_array_opt_int_union.mzn`.  Parameters are evaluated from left to right, with
undefined results; bodies are read with the precedences of `lib/parser.yxx`.

*Specification*: operations on `Option` values (`Weak`, `weakOp`, `leftOp`, `occurring`, `accessOpt`).

*Proof*: by cases on absence; the hidden value never reaches the result.  For arrays by induction; the default of `min` (`max`) is
not smaller (larger) than the value of an element that occurs.

*Simplified*: conditionals select a branch (see `Verif.Ite`), an access out of bounds is undefined.  Floats and enums have the same
bodies.  The caching of `had_zero` and the reverse map of the output model are not modelled.

*Deviations*: `C85_xor_fails` (the body `absent(x) \/ absent(y) \/ deopt(x) xor deopt(y)` is parsed with `xor` outermost),
`C85_var_dom_fails` (`var opt 0..2: x; var opt 1..2: y = x` lets `x` be 0), `C85_element_2d_fails` (an empty dimension makes an access
with an absent index undefined).

## C86 — The NL file of nonlinear solvers (`Verif/NL`)

*Modelled*: `solvers/nl/nl_file.cpp` and `nl_components.cpp`: the bounds with their updates, the table of the 48 builtins with the operator
codes, the builders of algebraic and logical constraints with their expression graphs and jacobians, the objective, the order of
variables and constraints, the header and all segments, line by line.  `nl_solreader.cpp`: reading a solution file, the status,
the report and the verdict.

*Specification* (`Spec.lean`): the FlatZinc builtins by name (`meaning`), and a reader of NL files written after *Writing .nl Files*
(D. M. Gay): cutting into segments, prefix expressions with a stack, bound codes, integer positions from the header counts
(`Feasible`, `objVal`, `isIntIdx`).  The floating point functions are a parameter with three laws; `ratFuns` and `realFuns` are
instances.

*Proof*: each builder keeps the meaning (`Step`, `Dispatch`), hence so does phase 1 (`Collect`); the printed file is a list of segments
whose expressions have the value of the graphs (`Print`), the order of the variables is a permutation that puts the integer ones
where the header counts say (`Index`), and the running sums are the numbers of entries in the first columns (`Counts`).

*Simplified*: an ordered field instead of doubles; `assert` is compiled out; comments in the file, and the arrays of the output but for
one item, are left out.  Solver subprocess and command line are not modelled.

*Deviations*: integer division and powers with a negative exponent are written as real ones (`C86_int_div_fails`,
`C86_int_pow_fails`); the bounds of a single variable are not written (`C86_single_variable_fails`); a value outside the
domain replaces the domain (`C86_inconsistent_bounds_fails`); a false equality of constants is dropped (`C86_constants_fails`); a bound
on a fixed variable throws (`C86_fixed_variable_fails`); a constraint with a constant result has no jacobian
(`C86_sparsity_fails`); the line after the message is consumed although it does not say `Options` (`C86_no_options_fails`); integers are
truncated, not rounded (`C86_rounding_fails`); there is no case for codes 500–599 (`C86_failure_reported_fails`).

## C87 — Enumerated types (`Verif/Enums`)

*Modelled*: `create_enum_mapper` (`lib/typecheck.cpp:162-1187`): the loop that collects the parts, the running
`partCardinality` vector with its special cases, the items generated for identifiers, anonymous members and constructors (offsets,
inverse tables, `mzn_set_is_contiguous`), the functions `_toString_…` and the dispatch between them.  `b_to_enum`, `b_enum_next`,
`b_enum_prev`, `b_set_sparse_inverse` (`lib/builtins.cpp`), and `stdlib_enum.mzn`.

*Specification* (`Spec.lean`): the list of values a declaration writes (`declVals`), as expressions, with their plain, data file and
JSON text; `Val.expr` is the syntax tree of C24, so reading back uses the lexer and the parser of C24.

*Proof*: the environment after `k` declarations is related to the values of those declarations (`EnvRel`, `Layout.lean`): the parts are
laid out one after the other, so that a part's offset is the number of values before it.  Printing and evaluation follow by induction on
the number of the declaration, because constructors refer to earlier types only.

*Simplified*: the generated items are functions, not syntax trees that are type checked again; variable versions of constructors are
the same functions on the values; the class and text of errors is left out.

*Deviations*: an empty list of identifiers before another part breaks printing (`C87_empty_part_fails`); a negative number of
anonymous members makes identifiers collide (`C87_negative_anonymous_fails`); the name of a type is not quoted for anonymous members
(`C87_quoted_name_fails`); the argument of a constructor over a subset of an enumerated type is printed with `show` in JSON
(`C87_subset_json_fails`); `enum_next` of a variable tests the largest element only (`C87_next_in_set_fails`).

## C88 — Solver selection, default options and parameter files (`Verif/Conf`)

*Modelled*: `SolverConfigs::addConfig`, `::config`, `::defaultOptions`, the reading of user defaults, `ExtraFlag` and its `validate`
(`lib/solver_config.cpp`); `ParamConfig` (`lib/param_config.cpp`) with the vector that stands for a compressed array literal; the loop of
`MznSolver::processOptions` that replaces parameter files, and the directories of the loop after it (`lib/solver.cpp:384-457`,
`:910-951`).

*Specification* (`Spec.lean`): the names a solver can be asked for by (`Carries`), the candidates and the one to use (`Chosen`),
option names and last values, the options of an entry (`atomArgs`), and the relation between a command line and the arguments it
stands for, each with its directory (`Expands`).

*Proof*: invariants of the table (`TableOk`) and of the sorted sets of solver numbers; reverse induction on the entries for the
options; induction on `Expands` for a machine with a vector of arguments and a stack of directories; termination by the number of
arguments left plus the sizes of the files that were not used yet.

*Simplified*: solvers are identifier, name, version and tags; the file system is three functions; lower case is ASCII; arrays in arrays
are left out of parameter files.

*Deviations*: the identifier of the default solver, tags and versions are compared with a request in lower case
(`C88_default_solver_fails`, `C88_tag_case_fails`, `C88_version_case_fails`); a version that is not installed is ignored
(`C88_version_fails`); flag types with one bound or of an unknown type, and texts that start with a number (`C88_flag_fails`);
equal values at the front of an array (`C88_repeated_values_fails`); arrays, blanks and `false` in objects
(`C88_object_array_fails`, `C88_object_blank_fails`, `C88_object_false_fails`); a file given twice (`C88_twice_fails`); the value of
another option taken for a parameter file (`C88_value_fails`).

## C89 — The interface to the solver Geas (`Verif/Geas`)

*Modelled*: all functions of `solvers/geas/geas_constraints.cpp`, function by function, with the reading of their arguments
(`PAR`, `asBool`, `asInt`, `asBoolVar`, `asIntVar`; reading beyond the arguments or the wrong member of a union is `ub`, exceptions are
`err`); the table of constraints; the domain of a new integer variable; `resolveVar` of an array access; `addSolutionNoGood`; both loops of
`solve` (`solvers/geas/geas_solverinstance.cpp`); the definitions of `share/minizinc/geas/*.mzn`.

*Specification* (`Spec.lean`): what each function of the solver enforces (trusted), the values of arguments, `Posts`: a constraint
is accepted and what is posted means the given statement, and the answers a correct solver may give (`Correct`, `CorrectOpt`).

*Proof*: each array of arguments is related to the array of its values; the loops over positions are related to a statement about the
element at the index (`AtIndex`); sums over the flows of `global_cardinality` are counted by rows and columns; the loops of `solve` keep
the invariant that the current problem is the original one without the solutions found, or with a better objective.

*Simplified*: floats, search annotations and statistics are left out; variables have no value of their own; `int` negation of the
smallest value is left out; the lists of answers stand for runs of the solver.

*Deviations*: `p_bool_eq` tests argument 2 (`C89_bool_eq_fails`); `p_bool_lt_reif` uses the integer functions (`C89_bool_lt_reif_fails`);
variable right hand sides of `bool_lin_*` (`C89_bool_linear_fails`); constants are cut to 32 bits (`C89_large_constants_fails`);
`bool2int` relies on the domain (`C89_bool2int_fails`); indices outside the array (`C89_element_index_fails`); literals in variable
arrays (`C89_element_literal_fails`); values that are not covered (`C89_global_cardinality_fails`); names that are not registered
(`C89_unknown_fails`); a solution printed when there is none, or twice (`C89_satisfaction_fails`); probing that does not end
(`C89_probing_fails`); an array access stands for the next element (`C89_array_access_fails`); negative exponents
(`C89_int_pow_fails`); `value_precede` requires the first value to occur (`C89_value_precede_fails`).

## C90 — Regular expressions in `regular` (`Verif/Regex`)

*Modelled*: the lexer and the grammar of regular expressions (`lib/support/regex/lexer.lxx`, `parser.yxx`), and `b_regular_from_string`
(`lib/builtins.cpp:3674-3850`): the replacement of names and calls of constructors, the table of transitions and the shift of the values; the
library predicate `regular` is the one of `Verif/Ext`.

*Specification* (`Spec.lean`): the documented expressions `Re`, their languages as Mathlib's `Language`, the grammar as an inductive relation
`Written`; the tokens of a text (`Tokens`, `NameTokens` in `Text.lean`); what is trusted about Gecode's `REG` (`Gecode`) and `DFA` (`Dfa.For`).

*Proof*: the parser accepts exactly the written expressions (`parse_iff`, by induction on fuel and on `Written`); languages are compared on
sequences over the domain by structural induction (`act_lang`); the table is the transition function of the automaton shifted by the
bounds, so runs correspond (`post_iff`).

*Simplified*: the parser of bison is written as recursive descent for the same grammar; domains are finite and within `int`; Gecode's
computation of automata is a parameter.  The names theorem leaves out texts with calls of constructors.

*Deviations*: quoted names are refused (`C90_quoted_names_fails`); without variables the assertion of `regular` fails
(`C90_no_variables_fails`); calls without a space between them are read as one number (`C90_adjacent_calls_fails`); negative values cannot be
written (`C90_negative_fails`); a class without a value in the domains is an error (`C90_empty_class_fails`).

## C91 — The interface to MIP solvers (`Verif/MipInst`)

Modelled (`Model.lean`): `MIP_solverinstance.hpp` — the columns for declarations (`declare`, `follow`, `bounds`), the conversion of arguments
(`exprToVar`, `exprToConst`), every function that posts a constraint (`pLin`, `pNonLin`, `pIndicatorLe0If0`, `pIndicatorEqIf1`, `pCumulative`,
`pLexLesseq`, `pLexChain`, `pBoundsDisj`, `pMinimum`, `pTimes`), the table of names (`post`), the status that is reported (`solve`), the values
that are read (`solutionValue`), search annotations and warm starts.

Specification (`Spec.lean`): the meaning of declarations and constraints over assignments of rational numbers to variables, and the meaning of
columns, rows and general constraints over assignments to columns. The second is what is trusted about the solvers, as is `Correct` for
their answers.

Proof: a constraint is a `Step` from one problem to the next: it keeps the names, adds exactly one condition on the values of the variables, and may
add columns for literals that every solution can be extended to (`Post.lean`, `Calls.lean`). Declarations keep the invariant `Inv` over the
declarations seen so far: the columns allow exactly the values that satisfy them, and variables with the same column are equal in every
solution (`Decl.lean`).

Simplified: doubles are rational numbers; names, statistics, messages and time limits are left out; cut generators are in `Verif/MipCuts`; search
annotations have no literals among their variables.

Deviations, each proved with a witness: `C91_known_flag_fails`, `C91_known_flag_unsat_fails` (`aux_float_eq_if_1__IND` with a known flag tests the
second value in place of the flag), `C91_upper_bound_fails` and `C91_bounds_fails` (bounds set for `aux_*_le_zero_if_0__IND` with a known
argument replace tighter or contradicting ones), `C91_tolerance_fails`, `C91_holes_fails`, `C91_bool_domain_fails`, `C91_no_variables_fails`.

## C92 — The interface to Gecode (`Verif/Gecode`)

Modelled (`Model.lean`): `solvers/gecode/gecode_constraints.cpp` and the conversions of arguments of `gecode_solverinstance.cpp`, function by
function: comparisons, linear constraints (with `isBoolArray`), arithmetic, Boolean operators and clauses, elements, membership, their reified and
half-reified forms, and the global constraints on integers. A poster returns the calls of Gecode's functions it makes (`Post`), and the
variables it creates with their bounds. Literals are cut to 32 bits where the code casts to `int`. Posters that look at domains take the
domains at the time of posting (`Doms`).

Specification (`Spec.lean`): the meaning of FlatZinc's constraints on values, and the meaning of Gecode's functions (`Post.holds`), which is what is
trusted about Gecode. `Posts p P` says that exactly the assignments with `P` can be extended to the new variables so that all calls are satisfied.

Proof: `Basic.lean` (comparisons, arithmetic, Booleans), `Global.lean` (elements, membership, counting, the constraints Gecode has too),
`Cumul.lean` (bins, automata, resources: each of the four ways to post a cumulative constraint).

Not modelled: floats, sets, cumulatives on several machines, circuits, optional tasks, propagation levels, `unshare`, search.

Deviations, each proved with a witness: `C92_cumulative_fails` and `C92_cumulative_increasing_fails` (the loop for the two smallest heights forgets a
minimum that is replaced, so that the second smallest height is too large and tasks that fit together are kept apart: solutions are lost),
`C92_cumulative_overflow_fails` (one task: `INT_MAX` is added to its height), `C92_clause_imp_fails` (`bool_clause_imp` is posted as a
reification), `C92_left_imp_fails` (an invalid cast), `C92_literals_fails` (literals outside 32 bits), `C92_repeated_cover_fails` (repeated values in
a cover are refused). `isBoolArray` returns the index of the Boolean variable in place of its position in the array; `C92_int_linear` shows that
this cannot be seen with integer arguments.

## C93 — Copying models (`Verif/CopyAst`)

Modelled (`Model.lean`): `lib/copy.cpp`, the three `copy` functions and the copy map, on a heap of objects that refer to each other. An object has a
label (what is copied without being followed), references that are copied before the copy is registered in the map and references that
are copied afterwards. Identifiers and declarations are separate kinds: an identifier is replaced by the identifier of the copied declaration.

Specification (`Spec.lean`): graphs are compared by paths of references (`follow`): `SamePaths` and `SameSharing`. `NoReturn` is the condition under
which it does not matter that calls are registered after their function has been copied.

Proof (`Inv.lean`): an invariant of map and heap during copying (entries are injective up to identifiers of one declaration; copies are right
except for the later references of objects being copied), and a measure for termination: objects not in the map, then objects reached through such
objects. `Props.lean`: the theorem and an example with a recursive function and a declaration that refers to itself.

Not modelled: `followIds`, `flat` and payload pointers, annotations of identifiers, shared vectors and value sets; that the functions of operators
are copied without `copyFundecls`, so that calls in their bodies refer to the original functions; the order of references in the loops.

Deviation: `C93_recursive_call_fails` (copying a call together with the functions gives two copies of it if it is in the body of its own function).

## C94 — Names in path files (`Verif/PathNames`)

Modelled (`Model.lean`): `PathFilePrinter::addBetterName` and `buildMap` of `lib/pathfileprinter.cpp`: the indices of an array element from its number,
and which names and paths overwrite others. Specification (`Spec.lean`): the position of an element in row-major order by Horner's rule, and
array accesses whose value is a given variable. Proof (`Props.lean`): induction over the dimensions, and over the calls of `addBetterName`.

Not modelled: `path2name` (a parameter), the text of the names, the lines and the JSON form, paths of constraints. The table compares identifiers
by address; so does the model.

## C95 — Black-box propagators (`Verif/Blackbox`)

Modelled (`Model.lean`): `synthesize_blackbox_bodies` of `lib/blackbox.cpp` for one item, with the loop that classifies the parameters, the choice of the
source annotation and the generated bodies; and the functions of `share/minizinc/std/experimental/blackbox.mzn` that make the default reasons and
flatten reasons to numbers. Specification (`Spec.lean`): legal declarations as in `docs/en/blackbox.rst`, the meaning of bodies for an arbitrary
external function, and a reader for the flattened reasons. Proof (`Props.lean`): an invariant of the loop over the parameters.

Not modelled: locations, texts of messages, resolution of file names, the removal of annotations, the lookup of `<name>_reason` and of the `par`
overload (inputs). Trusted: that a solver enforces `fzn_blackbox`.

Deviations: `C95_set_result_fails` (`list of var set of int` is accepted as a result) and `C95_optional_fails` (`list of var opt int` is accepted as a
parameter).

## C96 — Starting external solvers (`Verif/FznCmd`)

Modelled: `FZNSolverFactory::processOption` (the whole chain, on top of the model of `getOption` used for C45 and of `parse_cmd_line` used for C34),
`setAcceptedFlags`, the loop over the arguments left to the solver, and the command line and time limit built by `FZNSolverInstance::solve`. Extraction of an
`int` from a stream and printing of an `int` are parameters; the only thing assumed of them is that `-o` is not a number. Not modelled: printing of the
FlatZinc and path files (see C94), the process itself, what `sigint`, output passthrough and interactive mode do to it, and the driver's own options.

Specification (`Spec.lean`): `Req` (what a user can ask for), `Spelled` (the words that ask for it), `expected` (the command line) and `stopAfter`.
`C96_command_line_partial` says that every sequence of spelled requests gives the expected command line, by a lemma for each option (it is not taken by an
earlier alternative of the chain and does what it should) and an induction over the requests. `C96_no_solver` and `C96_unknown_rejected` are the error cases.

`Driver.lean` models the driver's own handling of `-a`, `-i` and their variants (`lib/solver.cpp` 925–944 and 1137–1161); `C96_solutions_partial` says that the
command line is the expected one for the user's other requests followed by the request about the number of solutions that `DriverSpec.lean` defines.

Deviations: `C96_num_optimal_fails` (`-n-o 5` has no effect, because the number is stored in a Boolean) and `C96_short_flag_fails` (a solver flag such as
`-restart` is taken for the random seed `estart`).
