{"id": "C01", "title": "Integer arithmetic never silently wraps", "statement": "Adding, subtracting, multiplying, dividing, taking remainders of, negating or incrementing two finite MiniZinc integers either returns the mathematically exact result as a finite integer or raises an arithmetic error; it never returns a wrapped-around or otherwise different number.", "quantifier": "all pairs of 64-bit signed operands, including both extremes of the range, and all operators", "why_tests_cant": "2^128 operand pairs; the failures sit at isolated boundary points (LLONG_MIN, -1, products just past the range)", "anchors": ["include/minizinc/values.hh: IntVal::safePlus, safeMinus, safeMult, safeDiv, safeMod, operator+,-,*,/,%"]}
{"id": "C02", "title": "Infinity arithmetic follows the extended integers", "statement": "An arithmetic operation on extended integers with an infinite operand yields the result defined on the extended integers, or raises an arithmetic error; it never yields anything else.", "quantifier": "all operand pairs with at least one infinite operand", "why_tests_cant": "infinite domain of finite co-operands; the wrong results only show when an infinity meets a finite value other than +-1", "anchors": ["include/minizinc/values.hh: IntVal operator+, operator-, operator*, unary operator-", "lib/values.cpp: IntVal::infinity"]}
{"id": "C03", "title": "Integer comparisons are one total order with infinities at its ends", "statement": "The six comparison operators on MiniZinc integers agree with one total order in which minus infinity is below, and plus infinity above, every finite integer; min and max return the order's minimum and maximum.", "quantifier": "all pairs and triples of finite and infinite integers", "why_tests_cant": "transitivity and totality range over all triples of 64-bit values", "anchors": ["include/minizinc/values.hh: operator==, <=, <, >=, >, !=", "include/minizinc/values.hh: std::min, std::max"]}
{"id": "C04", "title": "Integer power is exact or an error", "statement": "Raising a finite integer to a finite non-negative power returns the exact mathematical power or raises an arithmetic error; negative exponents return the truncated value of 1/x^|e| (and raise an error for x=0).", "quantifier": "all base/exponent pairs", "why_tests_cant": "unbounded exponents and 64-bit bases", "anchors": ["include/minizinc/values.hh: IntVal::pow"]}
{"id": "C05", "title": "Integer set literals are kept in normal form", "statement": "Building an integer set from any bounds, any list of integers or any sorted stream of ranges yields a set that contains exactly the requested integers and whose stored ranges are non-empty, strictly increasing and separated by at least one missing integer, so equal sets have identical storage.", "quantifier": "all lists of integers (any length, order, duplicates) and all range streams accepted by the constructors", "why_tests_cant": "lists are unbounded; normal form is a whole-structure invariant which every downstream algorithm relies on", "anchors": ["include/minizinc/values.hh: IntSetVal::a, IntSetVal::ai, IntSetVal::contains, min, max"]}
{"id": "C06", "title": "Union, intersection and difference of integer sets are exact", "statement": "The range-stream operators for union, intersection and difference of two normalised integer sets produce exactly the set-theoretic result, again in normal form, and always terminate.", "quantifier": "all pairs of normalised range sequences of any length, with finite or infinite end points", "why_tests_cant": "interleavings of range boundaries are unbounded; off-by-one errors show only at adjacent ranges", "anchors": ["include/minizinc/iter.hh: Ranges::Union, Ranges::Inter, Ranges::Diff, overlaps, next_higher, next_lower"]}
{"id": "C07", "title": "Set queries agree with set theory", "statement": "cardinality, membership, subset, equality and disjointness computed on range streams agree with the mathematical answers for the sets those streams denote.", "quantifier": "all normalised range sequences", "why_tests_cant": "unbounded sizes and interleavings", "anchors": ["include/minizinc/iter.hh: Ranges::cardinality, equal, subset, disjoint", "include/minizinc/values.hh: IntSetVal::contains, equal"]}
{"id": "C08", "title": "Set comparison is a total order that refines lexicographic order", "statement": "The < and <= operators on integer sets used by the evaluator form a total order: irreflexive, transitive, trichotomous, and it coincides with the lexicographic order of the sorted element sequences.", "quantifier": "all pairs and triples of finite sets", "why_tests_cant": "triples of arbitrary sets", "anchors": ["include/minizinc/iter.hh: Ranges::less, Ranges::less_eq", "lib/eval_par.cpp: eval_bool_internal set comparisons"]}
{"id": "C09", "title": "Printed integer sets denote the same set", "statement": "Writing an integer set to a stream produces range or element notation that denotes exactly the same set.", "quantifier": "all normalised sets", "why_tests_cant": "unbounded number of ranges; the choice between range and element notation depends on the values", "anchors": ["include/minizinc/values.hh: operator<<(ostream, IntSetVal)"]}
{"id": "C10", "title": "Tightening a variable domain removes exactly the violating values", "statement": "Tightening a domain with x<k, x<=k, x>k, x>=k, x=k or x!=k produces exactly the old domain's values satisfying the comparison; no solution is lost and none is invented.", "quantifier": "all domains, all comparison operators and all constants", "why_tests_cant": "domain shapes are unbounded and the boundary is data dependent", "anchors": ["include/minizinc/flatten_internal.hh: LinearTraits<IntLit>::limitDomain, intersectDomain, domainIntersects, domainContains"]}
{"id": "C11", "title": "Computed integer bounds are sound", "statement": "The lower and upper bound the compiler computes for an integer expression enclose every value that expression can take when its variables range over their domains.", "quantifier": "all integer expressions (any nesting) over +,-,*,div,mod,unary minus,abs,sums, if-then-else and all assignments within the domains", "why_tests_cant": "expressions are unbounded and assignments infinite; a single missed value silently removes solutions", "anchors": ["lib/eval_par.cpp: ComputeIntBounds, compute_int_bounds"]}
{"id": "C12", "title": "Linear simplification preserves the value of the linear expression", "statement": "Merging duplicate variables, folding constants and dropping zero coefficients in a linear expression leaves its value unchanged under every assignment, and the result has no duplicate variables, no constants and no zero coefficients.", "quantifier": "all coefficient/variable lists of any length and all assignments", "why_tests_cant": "lists are unbounded; merging depends on duplicates at arbitrary positions", "anchors": ["include/minizinc/flatten_internal.hh: simplify_lin"]}
{"id": "C13", "title": "Linear comparisons keep their meaning when normalised", "statement": "Rewriting a linear comparison (<, <=, =, !=, >=, >) against a constant into FlatZinc's <= / = / != form with adjusted coefficients and right-hand side has the same solutions.", "quantifier": "all coefficients, constants, comparison operators and assignments", "why_tests_cant": "unbounded assignments", "anchors": ["include/minizinc/flatten_internal.hh: LinearTraits<IntLit>::constructLinBuiltin"]}
{"id": "C14", "title": "Unboxed literals round-trip through their pointer encoding", "statement": "Storing an integer of magnitude below 2^61 or a float with exponent in the supported range directly in an expression pointer and reading it back gives the identical value, and an encoded integer, an encoded float and an ordinary (aligned) pointer are never confused with one another.", "quantifier": "all 2^64 bit patterns / all integers in the unboxed range", "why_tests_cant": "2^62 integers and 2^62 floats", "anchors": ["include/minizinc/ast.hh: Expression::intToUnboxedInt, unboxedIntToIntVal, doubleToUnboxedFloat, unboxedFloatToFloatVal, isUnboxedInt, isUnboxedFloat"]}
{"id": "C15", "title": "Source locations survive compact storage", "statement": "The first/last line and column reported by a location are exactly the ones it was created with, whether or not the compact 64-bit form is used.", "quantifier": "all 32-bit line/column quadruples with last line at or after first line", "why_tests_cant": "2^128 quadruples; the packing switches at data dependent thresholds", "anchors": ["lib/ast.cpp: LocVec::a", "include/minizinc/ast.hpp: LocVec accessors"]}
{"id": "C16", "title": "Types survive integer encoding", "statement": "Encoding a type to an integer and decoding it again gives back the same type; distinct types never share an encoding.", "quantifier": "all type values", "why_tests_cant": "the type record has about 2^35 values; the mask error affects only large enum/tuple identifiers", "anchors": ["include/minizinc/type.hh: Type::toInt, Type::fromInt, operator==, cmp"]}
{"id": "C17", "title": "Subtyping is a partial order and the common type is an upper bound", "statement": "The scalar subtype relation is reflexive and transitive; the common type computed for two types is a supertype of both and does not depend on argument order.", "quantifier": "all pairs and triples of types", "why_tests_cant": "millions of pairs, cubic for transitivity", "anchors": ["include/minizinc/type.hh: Type::isSubtypeOf, btSubtype", "lib/type.cpp: Type::btSubtype, Type::commonType"]}
{"id": "C18", "title": "Compressed array literals read back element for element", "statement": "An array literal built from any element list has the length of that list and reading index i returns the i-th element, whether or not the prefix-compressed representation is used.", "quantifier": "all element lists of any length", "why_tests_cant": "unbounded lists; compression depends on the length of the equal prefix", "anchors": ["lib/ast.cpp: ArrayLit::compress, ArrayLit::getSlice, ArrayLit::length", "include/minizinc/ast.hh: ArrayLit::operator[]"]}
{"id": "C19", "title": "Array slices select the right elements", "statement": "Reading element i of a slice of a multi-dimensional array returns the element of the original array at the corresponding index tuple.", "quantifier": "all dimensions, all slice bounds and all indices", "why_tests_cant": "unbounded number of dimensions and index-set sizes", "anchors": ["lib/ast.cpp: ArrayLit::origIdx, ArrayLit::getSlice, ArrayLit::make1d, slice constructor"]}
{"id": "C20", "title": "JSON nested arrays become the matching multi-dimensional array", "statement": "Reading nested JSON lists for an n-dimensional array parameter yields the row-major flattening with the nested lengths as index sets, and rectangularity violations are reported as errors.", "quantifier": "all nestings and lengths", "why_tests_cant": "unbounded nesting depth and size", "anchors": ["lib/json_parser.cpp: JSONParser::coerceArray"]}
{"id": "C21", "title": "JSON string escapes decode to the intended Unicode text", "statement": "A JSON string with \\uXXXX escapes (including surrogate pairs) is decoded to the UTF-8 encoding of the escaped code points.", "quantifier": "all code points and all strings", "why_tests_cant": "1.1 million code points times unbounded strings", "anchors": ["lib/json_parser.cpp: JSONParser::readToken"]}
{"id": "C22", "title": "JSON integers are read exactly or rejected", "statement": "An integer literal in JSON data is delivered as exactly that integer or an error is raised.", "quantifier": "all decimal integer literals", "why_tests_cant": "unbounded digit strings; wrong only beyond 32 bits", "anchors": ["lib/json_parser.cpp: JSONParser::readToken, T_INT"]}
{"id": "C23", "title": "String literals survive printing and re-parsing", "statement": "Printing a string literal and lexing the result yields the original string.", "quantifier": "all strings over bytes", "why_tests_cant": "unbounded strings", "anchors": ["lib/aststring.cpp / lib/prettyprinter.cpp: Printer::escapeStringLit", "lib/lexer.lxx: string states"]}
{"id": "C24", "title": "Operator expressions survive printing and re-parsing", "statement": "Printing an operator expression with the parentheses chosen by the printer, lexing the text and parsing the tokens is accepted and yields an expression with the same value, and with the same structure if the expression is one the parser itself builds. Known exceptions: negative or negated bases of powers, a right operand of + that starts with a plus sign, negative exponents that start with the digit 1, and calls or powers raised to the power -1.", "quantifier": "all well-sorted operator expression trees over integer literals, names, range literals, calls, the 28 binary and 3 unary operators, and all interpretations of names, calls and operators", "why_tests_cant": "trees are unbounded; errors appear for particular parent/child operator pairs", "anchors": ["lib/prettyprinter.cpp: precedence, assoc, need_parentheses, PlainPrinter::p", "lib/lexer.lxx: operators, numbers, identifiers", "lib/parser.yxx: operator precedences, expr, expr_atom_head, call_expr"]}
{"id": "C25", "title": "Edit distance used for suggestions is the Levenshtein distance", "statement": "The distance computed between two identifiers is the minimum number of single-character insertions, deletions and substitutions turning one into the other.", "quantifier": "all pairs of strings", "why_tests_cant": "unbounded strings; minimality quantifies over all edit scripts", "anchors": ["lib/aststring.cpp: ASTString::levenshteinDistance"]}
{"id": "C26", "title": "Interned strings are equal exactly when their contents are equal", "statement": "After any sequence of string creations and collections, two live interned strings are the same object exactly when they have the same characters.", "quantifier": "all histories of intern and collect operations", "why_tests_cant": "history dependent", "anchors": ["lib/aststring.cpp: ASTStringData::a, ASTStringData::destroy"]}
{"id": "C27", "title": "The collector frees no reachable node", "statement": "After a collection every node reachable from a root is still allocated with its contents unchanged, and every node that is not reachable is returned to the free store.", "quantifier": "all object graphs (cycles and sharing included) and all root sets", "why_tests_cant": "graphs are unbounded", "anchors": ["lib/gc.cpp: GC::Heap::mark, GC::Heap::sweep", "lib/ast.cpp: Expression::mark"]}
{"id": "C28", "title": "Undoing the trail restores every recorded location", "statement": "Whatever sequence of trailed writes follows a trail mark, undoing to that mark restores every trailed location to the value it had when the mark was set, and nested marks are undone in reverse order.", "quantifier": "all sequences of mark/write/untrail operations", "why_tests_cant": "histories are unbounded and locations may be written repeatedly", "anchors": ["lib/gc.cpp: GC::mark, GC::trail, GC::untrail"]}
{"id": "C29", "title": "No collection happens while the collector is locked", "statement": "Between acquiring and releasing a GC lock, in any nesting, no node is freed; once the outermost lock is released a due collection may run at the next outermost lock.", "quantifier": "all sequences of lock/unlock/allocate operations", "why_tests_cant": "schedules of nested locks are unbounded", "anchors": ["lib/gc.cpp: GC::lock, GC::unlock, GC::Heap::alloc, trigger"]}
{"id": "C30", "title": "Keep-alive handles protect exactly the values they hold", "statement": "For any sequence of creating, copying, moving, assigning and destroying keep-alive and weak handles, the collector treats as roots exactly the values of the live keep-alive handles, and a weak handle yields its value while the value is alive and null afterwards.", "quantifier": "all handle operation histories", "why_tests_cant": "handle lists are linked structures with history dependent shape", "anchors": ["lib/gc.cpp: KeepAlive, WeakRef, GC::addKeepAlive, removeKeepAlive, addWeakRef, removeWeakRef"]}
{"id": "C31", "title": "Solver output is processed independently of chunk boundaries", "statement": "Feeding a solver's output stream to the solution processor in any division into chunks produces the same state: the same output, the same solutions and status, the same unfinished line, and the same raw passthrough.", "quantifier": "all character streams and all divisions into chunks", "why_tests_cant": "the number of divisions is exponential in the stream length; depends on pipe scheduling", "anchors": ["lib/solns2out.cpp: Solns2Out::feedRawDataChunk"]}
{"id": "C32", "title": "Every solution is reported at most once and status lines are consistent", "statement": "With uniqueness checking on, no two printed solutions are equal, and each distinct solution is printed the first time it appears; without it every solution is printed. With canonical order nothing is printed before the status message, and then the distinct solutions are printed in increasing order. Separators appear exactly between solutions. Every status line is reported, in order, and the final status is the one announced last.", "quantifier": "all sequences of solutions, status lines and other lines", "why_tests_cant": "unbounded histories", "anchors": ["lib/solns2out.cpp: Solns2Out::evalOutput, evalStatus, evalStatusMsg, evalOutputFinalInternal"]}
{"id": "C33", "title": "Compressed model text round-trips through base64", "statement": "Decoding the base64 text produced by encoding any byte string yields that byte string.", "quantifier": "all byte strings", "why_tests_cant": "unbounded length; padding depends on the length mod 3", "anchors": ["lib/file_utils.cpp: encode_base64, decode_base64", "include/minizinc/thirdparty/b64"]}
{"id": "C34", "title": "Command lines split into the arguments they were built from", "statement": "Combining a list of arguments into one command line and splitting it again yields the same list.", "quantifier": "all lists of strings, including ones with spaces, quotes and backslashes", "why_tests_cant": "unbounded strings over the special characters", "anchors": ["lib/file_utils.cpp: parse_cmd_line, combine_cmd_line"]}
{"id": "C35", "title": "Version comparison is a total order", "statement": "Version numbers are compared major first, then minor, then patch; < is a strict total order and <= its reflexive closure.", "quantifier": "all pairs and triples of versions", "why_tests_cant": "unbounded version components", "anchors": ["include/minizinc/utils.hh: SemanticVersion"]}
{"id": "C36", "title": "Numeric command-line values are read exactly or rejected", "statement": "A numeric option value is accepted only if the whole text is a number of the target type, and the value obtained is exactly that number; everything else is rejected with an error.", "quantifier": "all strings", "why_tests_cant": "unbounded strings", "anchors": ["lib/utils.cpp: parse_int, parse_long, parse_unsigned_long, parse_unsigned_int"]}
{"id": "C37", "title": "Crash-handler decimal output is the exact decimal representation", "statement": "The signal-safe number formatting writes the exact decimal digits of the number, within the buffer.", "quantifier": "all unsigned integers", "why_tests_cant": "2^32 values and memory bounds", "anchors": ["lib/utils.cpp: itoa_async_safe, basename_async_safe, dump_stack"]}
{"id": "C38", "title": "A declaration is dropped from the flat model only if nothing uses its variable", "statement": "After any sequence of adding, removing and changing items and of unifying variables, the number of occurrences of a variable is never smaller than the number of items that contain it or a variable unified with it, and equal to it if no right hand side is dropped without being unregistered. Hence removing an item removes nothing else but declarations of free, non-output variables that no remaining item uses, and all of those that it used last; no assertion fails and the removal ends. The number of usages is zero exactly if the variable is only used by unused arrays.", "quantifier": "all histories of operations, all flat models, all choices of output and free variables", "why_tests_cant": "histories are unbounded, and a missing occurrence shows only if a later removal deletes a declaration that is still needed", "anchors": ["lib/optimize.cpp: VarOccurrences::add, remove, unify, occurrences, usages, unify, remove_deleted_items", "lib/flatten.cpp: EnvI::flatAddItem, flatRemoveExpr, flatRemoveItem", "lib/chain_compressor.cpp: ChainCompressor::replaceCallArgument"]}
{"id": "C39", "title": "Boolean simplification preserves the solution set", "statement": "The steps the optimiser takes on conjunctions, disjunctions, clauses, Boolean equalities, aliases and fixed Boolean variables, and the unification of variables, leave the set of solutions of the FlatZinc model unchanged, in whatever order they are taken; a run of the optimiser neither loses nor adds a solution.", "quantifier": "all flat models with any number of items and literals, all sequences of steps, and all assignments", "why_tests_cant": "unbounded number of literals, items, schedules and assignments", "anchors": ["lib/optimize.cpp: optimize (phases 1-4)", "lib/optimize.cpp: simplify_bool_constraint", "lib/optimize.cpp: unify"]}
{"id": "C40", "title": "Linear constraint optimisation preserves the solution set", "statement": "Removing fixed variables from a linear constraint, detecting entailment or failure, and turning a single-variable constraint into a domain or equality preserves the set of solutions.", "quantifier": "all linear constraints and all assignments", "why_tests_cant": "unbounded lengths and coefficients", "anchors": ["lib/optimize_constraints.cpp: o_linear"]}
{"id": "C41", "title": "Arithmetic, element, set-membership and comparison simplifications preserve the solution set", "statement": "The constraint rewrites for div, times, element, set membership, integer disequality and integer inequality replace the constraint only by one with the same solutions.", "quantifier": "all arguments and assignments", "why_tests_cant": "unbounded argument arrays and 64-bit values", "anchors": ["lib/optimize_constraints.cpp: o_div, o_times, o_element, o_set_in, o_int_ne, o_int_le"]}
{"id": "C42", "title": "Chain compression preserves solutions on the remaining variables", "statement": "When the optimiser shortens x -> y, y -> C to x -> C, or p <= n, a*n + ... <= c to a*p + ... <= c, an assignment of the remaining variables extends to a solution of the compressed model exactly if it extends to a solution of the original model; inconsistency is only reported for models without solutions, and no removed item is accessed.", "quantifier": "all flat models of clauses, half-reified calls, conjunctions, disjunctions and linear inequalities, all assignments, all orders of visiting the items, all runs of the loop", "why_tests_cant": "the condition for eliminating a variable counts occurrences in the whole model and changes with every step; models, orders and runs are unbounded", "anchors": ["lib/chain_compressor.cpp: ImpCompressor::trackItem, ImpCompressor::compress, ImpCompressor::compressItem, LECompressor::trackItem, LECompressor::compress, LECompressor::leReplaceVar, LECompressor::eqBounds", "include/minizinc/chain_compressor.hh: storeItem, count"]}
{"id": "C43", "title": "Rounded integer division in bound computation is exact", "statement": "The rounded-down and rounded-up quotients of two integers, used to derive a domain for a variable defined by a linear equation, are the mathematical floor and ceiling of the exact quotient.", "quantifier": "all pairs of 64-bit integers with a non-zero divisor", "why_tests_cant": "2^128 operand pairs; errors only appear beyond the precision of doubles", "anchors": ["include/minizinc/flatten_internal.hh: LinearTraits<IntLit>::floorDiv, LinearTraits<IntLit>::ceilDiv"]}
{"id": "C44", "title": "Flattening a linear comparison preserves its solutions", "statement": "When a comparison of two linear expressions is flattened, the result (a truth value, a changed domain, two unified variables, or one posted constraint) holds for exactly the assignments for which the comparison holds, among those respecting the declared domains; and a domain derived for a variable on one side of an equation contains its value in every solution.", "quantifier": "all linear expressions on both sides, all six operators, all contexts, domains, bounds and assignments", "why_tests_cant": "unbounded numbers of terms, 64-bit coefficients, and all combinations of context and domain knowledge", "anchors": ["lib/flatten/flatten_binop.cpp: flatten_linexp_binop", "include/minizinc/flatten_internal.hh: simplify_lin, LinearTraits<IntLit>"]}
{"id": "C45", "title": "A command-line option is recognised exactly when it is present", "statement": "An option is reported as found only if the current command-line item is one of its names, with its value in the next item or, for names of at most two characters, joined to the name; then exactly those items are consumed and that value is stored. Otherwise nothing is consumed and nothing is stored. Conversely an item that is a name followed by a valid value is found.", "quantifier": "all option name lists, all command lines, all positions, all value types", "why_tests_cant": "unbounded names and command lines", "anchors": ["include/minizinc/utils.hh: CLOParser::get, getOption"]}
{"id": "C46", "title": "Splitting an option text yields its words", "statement": "Splitting a text at blanks yields the list of its words, in order, each once.", "quantifier": "all texts", "why_tests_cant": "unbounded texts", "anchors": ["include/minizinc/utils.hh: split, beginswith", "solvers/MIP/MIP_osicbc_wrap.cpp (user)"]}
{"id": "C47", "title": "String operations compare and search bytes", "statement": "For interned strings without zero bytes: comparison with a text is equality of contents, < is the lexicographic byte order and a strict total order, beginsWith and endsWith recognise exactly the prefixes and suffixes, substr returns exactly the characters asked for and throws for a start behind the end, find returns the first occurrence from a position or reports absence, and findLastOf returns the last occurrence or reports absence.", "quantifier": "all strings, all texts, all characters and positions", "why_tests_cant": "Boundary behaviour (empty strings, equal prefixes, absent characters, positions past the end) depends on all pairs of strings; the unsigned loop in findLastOf only goes wrong when the character is absent.", "anchors": ["include/minizinc/aststring.hh: ASTString::operator<, endsWith, beginsWith, substr, find, findLastOf, operator=="]}
{"id": "C48", "title": "Re-dimensioning keeps the elements in row-major order", "statement": "array1d, array2d, … and arrayXd return an array with exactly the requested index sets and the elements of the argument in row-major order, completing an index set without upper bound, and report an error when the sizes do not match.", "quantifier": "all arrays, numbers of dimensions and index sets", "why_tests_cant": "unbounded dimensions and sizes; wrong only for sizes whose product wraps or bounds beyond 32 bits", "anchors": ["lib/builtins.cpp: b_arrayXd, b_array1d_list", "include/minizinc/ast.hpp: ArrayLit constructors"]}
{"id": "C49", "title": "Concatenation, selection and slicing pick the right layers", "statement": "concat_index_k, select_from_index_k and array slicing return the array whose element at every index tuple is the corresponding element of the argument, with the documented index sets, and are undefined exactly when an index is out of bounds.", "quantifier": "all arrays, dimensions, index sets and selected sets", "why_tests_cant": "unbounded dimensions, index sets and selections", "anchors": ["lib/builtins.cpp: b_concat_index, b_select_from_index, b_slice, array_dim_product"]}
{"id": "C50", "title": "Identifiers survive printing and re-lexing", "statement": "An identifier printed by the pretty printer (quoted when necessary) is lexed again as an identifier with the same name.", "quantifier": "all identifier texts the lexer can produce", "why_tests_cant": "unbounded identifiers; wrong only for a few words", "anchors": ["include/minizinc/prettyprinter.hh: Printer::quoteId", "lib/lexer.lxx: identifier, keyword and quoted rules"]}
{"id": "C51", "title": "String literals denote what their source says", "statement": "A string literal in a MiniZinc file, made of ordinary characters, the single-character escapes and hexadecimal and octal escapes, evaluates to exactly the bytes its source denotes, and lexing continues right behind the closing quote.", "quantifier": "for every source text of a literal and everything that follows it", "why_tests_cant": "escapes of variable length interact with the characters after them, so every sequence of elements has to be considered", "anchors": ["lib/lexer.lxx: string states", "lib/lexer.lxx: hexToByte / octal escapes"]}
{"id": "C52", "title": "Integer literals denote the written number or are rejected", "statement": "Reading a decimal, hexadecimal or octal integer literal, possibly negated, yields exactly the number written if it is representable and a syntax error otherwise; every integer value printed in decimal is read back as itself.", "quantifier": "for every sequence of digits of any length, every base and both signs", "why_tests_cant": "overflow is detected digit by digit with 64-bit arithmetic, so digit strings of all lengths matter", "anchors": ["lib/lexer.lxx: fast_strtointval, hexstrtointval, octstrtointval", "lib/parser.yxx: unary minus on integer literals"]}
{"id": "C53", "title": "JSON data is read as written", "statement": "Reading a JSON data file assigns to every declared parameter the value written in the file, whatever the white space and nesting: numbers, strings, booleans, null, sets, lists, nested lists as arrays with the declared index sets, objects as records; undeclared members and members starting with an underscore are ignored, and the order is kept.", "quantifier": "for every JSON document of any depth and length, every spelling of it, and every assignment of declared types", "why_tests_cant": "the reader is recursive over documents of unbounded depth and the meaning of a nested list depends on the declared type at every level", "anchors": ["lib/json_parser.cpp: parseExp, parseArray, parseObject, parseSet, parseEnumDef, coerceArray, parseModel, parseFromString"]}
{"id": "C54", "title": "showJSON writes JSON that reads back as the value shown", "statement": "For every fixed value built from integers, Booleans, strings, absent values, integer sets, arrays of any dimension, tuples and records, showJSON produces text that is a valid JSON document fragment denoting exactly that value, with arrays nested as deep as they have dimensions; a data file holding the text is read back with the same extents and elements.", "quantifier": "all values of all shapes, all strings and field names, all array extents and all nestings", "why_tests_cant": "values, array dimensions and nesting depths are unbounded; the bracket placement depends on a mixed-radix counter over arbitrarily many dimensions", "anchors": ["lib/builtins.cpp:b_show_json_basic", "lib/builtins.cpp:b_show_json_with_type", "lib/json_parser.cpp:JSONParser::parse"]}
{"id": "C55", "title": "Interactive solvers: text outside the solution markers is shown, text between them is processed", "statement": "For a solver with begin and end markers, in any division of its output into chunks, the lines between the markers are handed to the solution processor and all other text is shown unchanged and in order; unfinished text that cannot become a marker is shown at once.", "quantifier": "all character streams, all markers and all divisions into chunks", "why_tests_cant": "the result must not depend on the schedule of the pipe", "anchors": ["lib/solns2out.cpp: Solns2OutInteractive::feedRawDataChunk, processCompleteLine, is_marker_prefix"]}
{"id": "C56", "title": "Unsatisfiable cores are reported entry by entry in terms of the model", "statement": "Each entry of the core reported by the solver yields exactly one reported entry, in order: a known variable becomes its expression, a known variable in a comparison becomes its parenthesised expression, and everything else is kept.", "quantifier": "all lists of entries, all blanks around them, all tables of assumptions", "why_tests_cant": "unbounded lists and names", "anchors": ["lib/solns2out.cpp: Solns2Out::resolveAssumptionCore"]}
{"id": "C57", "title": "Simplifying an equality, inequality or bool2int keeps the solutions", "statement": "When the optimiser simplifies a constraint, or the reified constraint that defines a Boolean variable, the flat model afterwards has exactly the solutions it had before: domains lose only values that violate the constraint, a removed constraint is implied by what remains, a reported failure means there is no solution, and a definition is never lost. Replacing fixed variables by their values does not change a constraint.", "quantifier": "all domains, right hand sides, items (constraint, Boolean declaration, integer declaration), arguments (variable or literal) and assignments; any behaviour of the registered constraint propagators that gives right verdicts", "why_tests_cant": "The effect depends on the item kind, on whether the Boolean is fixed, on the argument order and on the domain; an unsound step only shows as a missing or extra solution for particular combinations.", "anchors": ["lib/optimize.cpp: simplify_constraint", "lib/optimize.cpp: SubstitutionVisitor::subst", "lib/optimize.cpp: substitute_fixed_vars"]}
{"id": "C58", "title": "Parameter expressions are evaluated according to the relational semantics", "statement": "Evaluating a parameter expression (integers, Booleans, sets of integers; operators, conditionals, let, comprehensions with several generators and where clauses, aggregation built-ins, array access, calls of user-defined functions, possibly recursive) delivers exactly the value the language definition gives it: undefinedness (division by zero, access outside an array, minimum of nothing, violated domain or let constraint) makes the nearest enclosing Boolean expression false and otherwise propagates; and as long as no intermediate number leaves the 64-bit range the evaluation neither fails nor has undefined behaviour.", "quantifier": "all well-typed expressions of the fragment, all programs with interpretable functions, all assignments of parameters, all recursion depths", "why_tests_cant": "expressions nest without bound and the handling of undefinedness, laziness and shadowing depends on every combination of constructs", "anchors": ["lib/eval_par.cpp: eval_int, eval_bool, eval_intset, eval_array_lit, eval_call, check_par_domain", "include/minizinc/eval_par.hh: eval_comp, eval_arrayaccess", "lib/builtins.cpp: b_sum_int, b_product_int, b_int_min, b_arg_min_int, b_forall_par, b_exists_par, b_clause_par, b_xorall_par"]}
{"id": "C59", "title": "Flattening Boolean constraints preserves the solutions", "statement": "Compiling constraints built from Boolean variables, predicate calls, integer comparisons with partial operands, counts of Booleans and the operators not, /\\, \\/, ->, <-, <->, xor, forall and exists (with negation pushed inwards, nested operators aggregated, clauses merged, duplicates removed, common subexpressions shared, and results bound to fresh variables, given variables or true) yields a flat model whose solutions, restricted to the variables of the user's model, are exactly the solutions of the user's model, when every introduced variable is fully reified; with half-reification enabled no solution is lost; and inconsistency is reported only for models without solutions.", "quantifier": "all models (lists of Boolean declarations with right-hand sides and constraints) over any number of variables, all nestings of the operators, all assignments, all interpretations of predicates and integer terms", "why_tests_cant": "contexts, negation, sharing, aliasing and the order of the constraints interact without bound; a test sees one model and one solver run", "anchors": ["lib/flatten.cpp: bind, conj, cse_result_change_ctx, EnvI::addCtxAnn", "lib/flatten/flatten_binop.cpp: flatten_binop, flatten_bool_op, aggregate_and_or_ops", "lib/flatten/flatten_call.cpp: flatten_call, remove_dups, contains_dups", "lib/flatten/flatten_id.cpp: flatten_id", "lib/flatten/flatten_unop.cpp: flatten_unop"]}
{"id": "C60", "title": "Half-reification adds no solutions", "statement": "With half-reification enabled (a variable introduced for a subexpression in positive position only implies the subexpression), every solution of the flat model restricted to the variables of the user's model is a solution of the user's model.", "quantifier": "all models of Boolean declarations and constraints, all nestings of the operators, all solutions of the flat model, all interpretations of predicates and integer terms", "why_tests_cant": "a context that is wrong for one subexpression in one combination of operators, sharing and negation makes the solver report assignments that violate the model; tests check the few combinations they contain", "anchors": ["lib/flatten.cpp: bind, conj, cse_result_change_ctx, EnvI::addCtxAnn, EnvI::annToCtx", "lib/flatten/flatten_binop.cpp: flatten_binop", "lib/flatten/flatten_call.cpp: flatten_call"]}
{"id": "C61", "title": "Overload resolution", "statement": "A call is resolved to a declared function that accepts the arguments; a call that some declaration accepts is not rejected; no other declaration that accepts the arguments is more specific than the one chosen, also when missing arguments are filled with defaults; and the choice does not depend on the order in which the overloads are declared.", "quantifier": "all lists of overloads of a name (any number of parameters, with and without bodies and defaults), all orders of declaration, and all lists of argument types", "why_tests_cant": "The table is kept sorted by a comparison of parameter lists that mixes subtyping with an integer encoding of types; whether it is an order at all depends on every triple of declared signatures, and the first-match search is right only if it is.", "anchors": ["lib/model.cpp: Model::FnEntry::compare, Model::registerFn, Model::addEntry, Model::matchFn, at_least_as_specific", "lib/flatten.cpp: EnvI::isSubtype"]}
{"id": "C62", "title": "Names, scopes and the order of declarations", "statement": "Every identifier of a model denotes the declaration that static scoping prescribes: the innermost enclosing let, comprehension or function parameter that declares the name before the occurrence, otherwise the global declaration, wherever in the model that stands. The model is rejected exactly if a scope declares a name twice, an identifier has no declaration, or a global declaration is (directly or indirectly) defined in terms of itself, and the message gives a reason that holds. The order of items does not matter. In the processed model every declaration comes after those it mentions.", "quantifier": "all models (lists of declarations, constraints, solve and output items, functions) with expressions of any size and nesting, in any item order", "why_tests_cant": "The pass visits global declarations on demand from inside arbitrary nested scopes; that local names neither leak into them nor hide globals wrongly, and that no chain of definitions of any length escapes the circularity check, concerns all models.", "anchors": ["lib/typecheck.cpp: Scopes::add", "lib/typecheck.cpp: Scopes::find", "lib/typecheck.cpp: TopoSorter::checkId", "lib/typecheck.cpp: TopoSorter::run", "lib/typecheck.cpp: typecheck (TSV0, TSV1, SortByPayload)", "include/minizinc/typecheck.hh: Scopes, TopoSorter"]}
{"id": "C63", "title": "Parameter functions on arrays and sets compute what the library documents", "statement": "For every parameter array and set: arg_min/arg_max return the index of the first least/greatest element, min/max an extreme element (an error on an empty array); sort_by(x, y) returns x in the order of a permutation in which the keys y do not fall and equal keys keep their order, and reads nothing outside x; sort returns the elements in non-decreasing order; inverse(f) succeeds exactly when the values are an interval without repetitions and then maps every value to the index where it is found; set2array lists the elements in increasing order; set_to_sparse_inverse maps the k-th smallest element to k; array_union and array_intersect return the union and the intersection, and always return; set_to_ranges lists the ends of the ranges.", "quantifier": "all arrays of any length with any index set, all keys and all finite sets", "why_tests_cant": "the arrays, index sets and sets are unbounded; the failures need a particular shape (a gap in the first set, a negative index, keys longer than the array)", "anchors": ["lib/builtins.cpp: b_int_min, b_int_max, b_arg_min_int, b_arg_max_int, b_arg_min_bool, b_arg_max_bool, b_arg_min_float, b_arg_max_float", "lib/builtins.cpp: b_sort_by_int, b_sort_by_float, b_sort, b_inverse", "lib/builtins.cpp: b_set2array, b_set_sparse_inverse, b_array_union, b_array_intersect, b_set_to_ranges_int", "share/minizinc/std/stdlib/stdlib_sort.mzn, stdlib_set.mzn, stdlib_math.mzn"]}
{"id": "C64", "title": "Formatting functions justify and cut texts as documented", "statement": "show_int, show_float, format and format_justify_string put the text of a value in |w| columns, on the right for w >= 0 and on the left for w < 0, adding blanks only and cutting nothing beyond the requested precision or maximal length; a negative precision or maximal length is an error; characters are not split.", "quantifier": "all widths, precisions, maximal lengths and texts", "why_tests_cant": "widths, precisions and texts are unbounded; casts and sign errors only show for particular values", "anchors": ["lib/builtins.cpp: b_format, b_format_justify_string, b_show_int, b_show_float", "share/minizinc/std/stdlib/stdlib_string.mzn"]}
{"id": "C65", "title": "The domains computed for results of div, mod and pow contain every possible result", "statement": "When a variable is introduced for x div y, x mod y or pow(x, y), the domain computed from the bounds of x and y contains the value of the operation for all x and y within those bounds for which it is defined, so that no solution is lost.", "quantifier": "all bounds of the operands, finite or not, and all values within them", "why_tests_cant": "the bounds range over all 64-bit numbers and infinities; the corner cases (divisors around 0, negative bases, odd and even exponents, negative exponents) combine", "anchors": ["lib/builtins.cpp: b_compute_div_bounds, b_compute_mod_bounds, b_compute_pow_bounds", "share/minizinc/std/stdlib/stdlib_internal.mzn"]}
{"id": "C66", "title": "Equal expressions mean the same, and common subexpressions get correct results", "statement": "Two expressions that the library considers equal (Expression::equal) have the same value for every assignment; equality is an equivalence, agrees with hash values, and Expression::compare is a total order of expressions in which equal expressions are not separated. The result that is reused for an expression because an equal one has been flattened before stands for that expression; it is in the flat model; expressions removed from the map are flattened again; no reused result refers to a collected node.", "quantifier": "all pairs and triples of expressions of any depth, all stored hash values, and all sequences of insertions, searches, removals and garbage collections", "why_tests_cant": "expressions are unboundedly deep; equality is used through hash tables whose contents depend on the whole history of the compilation", "anchors": ["include/minizinc/ast.hpp: Expression::equal", "lib/ast.cpp: Expression::equalInternal, Expression::compare, rehash, Call::commutativeNormalized", "lib/flatten.cpp: EnvI::cseMapInsert, cseMapFind, cseMapRemove", "include/minizinc/flatten_internal.hh: CSEMap::fixWeakRefs", "include/minizinc/hash.hh: KeepAliveMap"]}
{"id": "C67", "title": "Flattening conditional expressions preserves their meaning", "statement": "A conditional expression with fixed or variable conditions is translated into constraints whose solutions are exactly those in which the result is the value of the branch of the first true condition (or of the else branch), and which is defined exactly if that branch is. Only the selected branch is kept if the conditions are fixed. A conditional constraint whose branches contain equations for variables may be split into one conditional per variable without changing its solutions, and a conditional over tuples into one per field.", "quantifier": "every number of conditions and branches, fixed or variable, every assignment, every mix of equations and other constraints in the branches, every bounds and domains, and every order in which the table of variables is visited", "why_tests_cant": "the splitting depends on how often each variable occurs in how many branches, and the bounds on the domains of all branches; tests cover a few shapes", "anchors": ["lib/flatten/flatten_ite.cpp: flatten_ite, get_conjuncts, classify_conjunct, ite_struct_split", "lib/flatten/flatten_binop.cpp: flatten_dom_constraint", "share/minizinc/std/fzn_if_then_else_int.mzn", "share/minizinc/std/fzn_if_then_else_partiality.mzn"]}
{"id": "C68", "title": "Array access with variable indices", "statement": "Flattening an access a[i1,…,in] to an integer array, where each index is fixed or a variable, gives constraints that mean the access: in the root context they hold exactly if all indices are in the index sets and the result is the element at that position; in any other context they can always be satisfied, they make the access undefined exactly if an index is out of range, and otherwise the result is the element. If an index is absent (<>) the result is absent. The slice taken for the fixed indices contains exactly the elements the variable indices can reach, in row-major order; and composing a[b[i]] with a fixed b does not change the value for any i.", "quantifier": "all arrays of any number of dimensions and any index sets (also empty ones), with up to six variable indices; every choice of fixed and variable indices and values of them; all contexts; all known bounds of the index variables that are correct", "why_tests_cant": "index sets, array sizes and index values are unbounded, and the shapes with empty index sets or absent indices are many", "anchors": ["lib/flatten/flatten_arrayaccess.cpp: flatten_arrayaccess", "share/minizinc/std/stdlib/stdlib_internal.mzn: element, element_t, element_mt", "share/minizinc/std/redefinitions-2.0.2.mzn: array_var_int_element_nonshifted", "share/minizinc/std/redefinitions-2.5.2.mzn: array_var_int_element2d_nonshifted"]}
{"id": "C69", "title": "Comprehensions: where clauses, variable conditions, sets of variables and indices", "statement": "The type checker's rearrangement of the where clauses of a comprehension never changes which elements are generated nor their order. Flattening a comprehension with variable where clauses or generators over set variables preserves its meaning under every assignment: in forall and exists, in sum, and elsewhere (elements whose condition is false are absent). A comprehension with indices [i,j: e | ...] yields an array exactly if its index tuples are distinct and fill a box; the index sets are then that box and each element is at its index.", "quantifier": "all lists of generators with any number of declarations, sets, set variables, assignments and where clauses; all assignments; all elements; for indices all numbers of dimensions and all lists of entries", "why_tests_cant": "the number and dependencies of generators, the shapes of where clauses and the values are unbounded; moved conditions and conditions with variables only go wrong for particular combinations", "anchors": ["lib/typecheck.cpp: vComprehension", "lib/flatten/flatten_comp.cpp: flatten_comp", "include/minizinc/eval_par.hh: eval_comp, eval_comp_array, eval_comp_set"]}
{"id": "C70", "title": "Each included file is loaded once, whatever the include graph", "statement": "Loading a model finishes for every include graph. If every file that is included directly or indirectly can be opened and the first file does not include itself, every one of these files is loaded exactly once, with its items in order and each include item referring to the model of the included file; otherwise loading reports the cycle or the missing file. A relative name is looked up in the include paths in order and then beside the including file. Iterating over the items visits every file's items exactly once and deleting the model deletes every included model exactly once, also if loading stops with an error.", "quantifier": "all file systems, include graphs (with diamonds and cycles), include paths, lists of further files and libraries, and all points at which loading stops", "why_tests_cant": "Include graphs are unbounded in size and shape; double loading, double deletion, leaks and non-termination depend on the order in which files are found and on cycles, of which tests cover a few.", "anchors": ["lib/parser.cpp:ParserState::canonicalFilename", "lib/parser.cpp:parse", "lib/parser.yxx:include_item", "include/minizinc/model.hh:ItemIter::run", "lib/model.cpp:Model::~Model"]}
{"id": "C71", "title": "Let expressions keep their meaning under flattening", "statement": "A constraint with let expressions - local variables with or without right-hand sides, domains of local variables, local constraints, partial right-hand sides - in any Boolean position (top level, under disjunction, negation, equivalence, in right-hand sides of other locals, nested) has a flat model whose solutions, restricted to the variables of the model, are exactly the values for which the constraint is true. Local variables without a right-hand side in a non-positive position are reported as errors, and only these. After a let expression the declarations have the flat variables that they had before, so that evaluating the same let twice gives independent copies.", "quantifier": "all expressions of the language with arbitrarily nested let expressions, all values of the variables of the model, all contexts", "why_tests_cant": "Nesting of lets, contexts and partial functions is unbounded, and a wrong context or a condition that is lost only shows for particular values in particular positions.", "anchors": ["lib/flatten/flatten_let.cpp:flatten_let", "lib/flatten.cpp:conj", "lib/flatten.cpp:new_vardecl"]}
{"id": "C72", "title": "Calls of user-defined functions keep their meaning under flattening", "statement": "Constraints with calls of user-defined functions and predicates - recursive ones, with domains on parameters and results, partial bodies, `promise_total`, locals with the same declarations in several active calls, repeated calls shared as common subexpressions, in any Boolean position - have a flat model whose solutions, restricted to the variables of the model, are exactly the values for which the constraints are true when each call is replaced by the body with the values of the arguments. Calls with an argument or result outside of its declared domain are undefined (false in the enclosing Boolean expression). After a call the parameters of all functions have the values that they had before.", "quantifier": "all programs of functions and predicates with arbitrary (also mutual) recursion, all lists of constraints, all values of the variables of the model, all depths of calls", "why_tests_cant": "Recursion is unbounded, parameters are shared mutable declarations, and whether a shared call is reused depends on everything that was flattened before; wrong sharing only shows for particular values.", "anchors": ["lib/flatten/flatten_call.cpp:flatten_call", "lib/flatten.cpp:conj", "lib/flatten.cpp:EnvI::cseMapInsert", "lib/flatten.cpp:EnvI::cseMapFind"]}
{"id": "C73", "title": "The scheduling and packing constraints of the library mean what their documentation says", "statement": "cumulative, cumulatives, disjunctive, disjunctive_strict, diffn, diffn_nonstrict, diffn_k, diffn_nonstrict_k, bin_packing, bin_packing_capa and bin_packing_load (and their reified and optional versions) hold of an assignment exactly if the documented condition holds: at no time do the running tasks need more than the capacity, no two boxes overlap, no bin is overfull. This must not depend on the bounds of the variables, which select one of several decompositions.", "quantifier": "all numbers of tasks, boxes, dimensions and items, all values, and all bounds that enclose the values", "why_tests_cant": "Which decomposition is used depends on the horizon, the bounds and the index sets, and a decomposition that only looks at task starts or at pairs is right only because of an argument over all times, all subsets of running tasks and all cells.", "anchors": ["share/minizinc/std/cumulative.mzn", "share/minizinc/std/fzn_cumulative.mzn", "share/minizinc/std/fzn_cumulative_reif.mzn", "share/minizinc/std/fzn_cumulative_opt.mzn", "share/minizinc/std/cumulatives.mzn", "share/minizinc/std/fzn_cumulatives.mzn", "share/minizinc/std/fzn_disjunctive.mzn", "share/minizinc/std/fzn_disjunctive_strict.mzn", "share/minizinc/std/fzn_diffn.mzn", "share/minizinc/std/fzn_diffn_k.mzn", "share/minizinc/std/fzn_bin_packing.mzn", "share/minizinc/std/fzn_bin_packing_load.mzn"]}
{"id": "C74", "title": "The counting constraints of the library mean what their documentation says", "statement": "all_different (with exceptions, of sets, of optional elements), all_equal, count_*, at_least, at_most, exactly, among, distribute, global_cardinality and its closed, bounded, reified and optional forms, nvalue and the set constraints at_most1, all_disjoint, partition_set, sum_set and int_set_channel hold of an assignment exactly if the documented condition on the numbers of occurrences holds.", "quantifier": "all arrays, covers, counts, bounds and exceptions, all domains that contain the values", "why_tests_cant": "The decompositions add implied constraints and replace absent elements by values outside of the domains; whether these cut off solutions depends on the cover and the domains of all arrays.", "anchors": ["share/minizinc/std/fzn_global_cardinality.mzn", "share/minizinc/std/fzn_global_cardinality_low_up_closed.mzn", "share/minizinc/std/global_cardinality_closed.mzn", "share/minizinc/std/fzn_alldifferent_except.mzn", "share/minizinc/std/fzn_all_different_int_opt.mzn", "share/minizinc/std/count_eq.mzn", "share/minizinc/std/fzn_nvalue.mzn", "share/minizinc/std/nvalue.mzn"]}
{"id": "C75", "title": "The ordering, precedence and symmetry breaking constraints of the library mean what their documentation says", "statement": "lex_less, lex_lesseq (in every context), lex_chain_less, lex_chain_lesseq, lex2, strict_lex2, increasing, strictly_increasing, value_precede, value_precede_chain, seq_precede_chain (on integers, optional integers and sets), var_perm_sym and var_sqr_sym hold of an assignment exactly if the documented order condition holds.", "quantifier": "all arrays and matrices of every length and index set, all orders (with repeated values), all bounds that contain the values, all matrix sizes", "why_tests_cant": "The decompositions introduce auxiliary Booleans and running maxima with domains taken from the bounds of the arguments; a lost solution depends on lengths, index sets, domains and repeated values.", "anchors": ["share/minizinc/std/stdlib/stdlib_internal.mzn:lex_less_std_decomposition", "share/minizinc/std/lex_less.mzn", "share/minizinc/std/fzn_lex_chain_less_int.mzn", "share/minizinc/std/fzn_lex2.mzn", "share/minizinc/std/fzn_value_precede_int.mzn", "share/minizinc/std/fzn_value_precede_chain_int.mzn", "share/minizinc/std/fzn_seq_precede_chain_int.mzn", "share/minizinc/std/fzn_seq_precede_chain_set.mzn", "share/minizinc/std/fzn_increasing_int_opt.mzn", "share/minizinc/std/fzn_strictly_increasing_int.mzn", "share/minizinc/std/fzn_var_perm_sym.mzn", "share/minizinc/std/fzn_var_sqr_sym.mzn"]}
{"id": "C76", "title": "The extensional constraints of the library (automata, decision diagrams, tables) mean what their documentation says", "statement": "regular, regular_nfa and cost_regular hold exactly for the sequences the automaton accepts (with that sum of costs); mdd, mdd_nondet and cost_mdd exactly for the sequences spelled by a path of the diagram (with that cost); table exactly for its rows; the reified forms make the Boolean say so.", "quantifier": "all sequences of every length and index set, all automata, layered diagrams and tables, all numbers of states, symbols, nodes and edges", "why_tests_cant": "The decompositions guess state sequences, node and edge Booleans and distances with domains computed from the data; a lost or spurious solution depends on the shape of the automaton or diagram, index sets, costs, and empty sequences.", "anchors": ["share/minizinc/std/regular.mzn", "share/minizinc/std/fzn_regular.mzn", "share/minizinc/std/fzn_regular_set.mzn", "share/minizinc/std/fzn_regular_reif.mzn", "share/minizinc/std/fzn_regular_set_reif.mzn", "share/minizinc/std/fzn_regular_nfa.mzn", "share/minizinc/std/regular_nfa.mzn", "share/minizinc/std/fzn_cost_regular.mzn", "share/minizinc/std/fzn_mdd.mzn", "share/minizinc/std/fzn_mdd_reif.mzn", "share/minizinc/std/fzn_mdd_nondet.mzn", "share/minizinc/std/fzn_cost_mdd.mzn", "share/minizinc/std/fzn_table_int.mzn", "share/minizinc/std/fzn_table_int_reif.mzn", "share/minizinc/std/fzn_table_int_opt.mzn"]}
{"id": "C77", "title": "The graph constraints of the library (reachability, connection, trees, spanning and Steiner trees, paths, acyclic graphs, circuits) mean what their documentation says", "statement": "reachable and dreachable hold exactly when every selected node is reached from the root along selected edges; connected exactly for connected selections; tree and dtree exactly for (rooted) trees; the weighted versions also fix the sum of the weights; path and dpath exactly for simple paths from source to sink; dag for acyclic subgraphs; circuit, subcircuit and circuit over optional successors exactly for single cycles.", "quantifier": "all graphs (any numbers of nodes and edges, self loops, parallel edges, any index sets), all selections of nodes and edges, all roots, all successor arrays", "why_tests_cant": "The decompositions guess distances, parents and orders in domains computed from the data, and double the edges of undirected graphs; a lost or spurious solution depends on the shape of the graph: self loops, parallel edges, longest shortest paths, index sets not starting at 1, empty selections.", "anchors": ["share/minizinc/std/fzn_dreachable_int.mzn", "share/minizinc/std/fzn_dreachable_enum.mzn", "share/minizinc/std/fzn_reachable_int.mzn", "share/minizinc/std/fzn_reachable_enum.mzn", "share/minizinc/std/fzn_connected.mzn", "share/minizinc/std/fzn_dconnected.mzn", "share/minizinc/std/fzn_dtree_int.mzn", "share/minizinc/std/fzn_dtree_enum.mzn", "share/minizinc/std/fzn_tree_int.mzn", "share/minizinc/std/fzn_tree_enum.mzn", "share/minizinc/std/steiner.mzn", "share/minizinc/std/weighted_spanning_tree.mzn", "share/minizinc/std/fzn_dpath_int.mzn", "share/minizinc/std/fzn_dpath_enum.mzn", "share/minizinc/std/fzn_path_int.mzn", "share/minizinc/std/fzn_path_enum.mzn", "share/minizinc/std/fzn_bounded_path_enum.mzn", "share/minizinc/std/fzn_dag.mzn", "share/minizinc/std/fzn_circuit.mzn", "share/minizinc/std/fzn_subcircuit.mzn", "share/minizinc/std/fzn_circuit_opt.mzn"]}
{"id": "C78", "title": "The channelling, sorting, argument, array writing, flow, packing and piecewise linear constraints of the library mean what their documentation says", "statement": "inverse (also in_range, optional and set versions), int_set_channel, link_set_to_booleans and symmetric_all_different hold exactly for mutually inverse views; range and roots give image and preimage; sort and arg_sort exactly the (stable) sorted order; arg_max, arg_min, arg_val and their weak and optional versions the first index of the greatest, least or given element; write, writes and writes_seq the updated array; sliding_sum, network_flow, knapsack and sum_pred the stated sums; piecewise_linear the points on the given pieces. Functions that promise to be total have exactly one result.", "quantifier": "all arrays (any index sets, lengths, values, absent elements), all bounds the compiler may derive, all results", "why_tests_cant": "Each decomposition introduces auxiliary variables, default values for absent elements and re-indexed arrays; wrong answers appear only for particular index sets, ties, absent elements, repeated indices or empty arrays.", "anchors": ["share/minizinc/std/fzn_inverse.mzn", "share/minizinc/std/fzn_inverse_in_range.mzn", "share/minizinc/std/fzn_inverse_opt.mzn", "share/minizinc/std/fzn_inverse_set.mzn", "share/minizinc/std/fzn_int_set_channel.mzn", "share/minizinc/std/link_set_to_booleans.mzn", "share/minizinc/std/fzn_symmetric_all_different.mzn", "share/minizinc/std/range.mzn", "share/minizinc/std/roots.mzn", "share/minizinc/std/sort.mzn", "share/minizinc/std/fzn_arg_sort_int.mzn", "share/minizinc/std/arg_sort.mzn", "share/minizinc/std/fzn_arg_max_int.mzn", "share/minizinc/std/fzn_arg_min_int.mzn", "share/minizinc/std/fzn_arg_max_float.mzn", "share/minizinc/std/fzn_arg_max_int_opt.mzn", "share/minizinc/std/arg_max.mzn", "share/minizinc/std/arg_min.mzn", "share/minizinc/std/arg_val.mzn", "share/minizinc/std/fzn_arg_val_int_opt.mzn", "share/minizinc/std/fzn_write.mzn", "share/minizinc/std/fzn_writes.mzn", "share/minizinc/std/fzn_writes_seq.mzn", "share/minizinc/std/fzn_sliding_sum.mzn", "share/minizinc/std/fzn_sum_pred.mzn", "share/minizinc/std/network_flow.mzn", "share/minizinc/std/knapsack.mzn", "share/minizinc/std/fzn_piecewise_linear.mzn", "share/minizinc/std/fzn_piecewise_linear_non_continuous.mzn"]}
{"id": "C79", "title": "Turning domain constraints into linear constraints for MIP solvers neither loses nor adds solutions", "statement": "For a group of integer variables linked by linear equations with two variables, the compiler replaces the constraints b <-> x <= c, b <-> x >= c, b <-> x = c, x != c, x in S, b <-> x in S and the domains by new ranges, new 0-1 variables and linear constraints (or by constraints on the flags of an existing equality encoding). An assignment satisfying the equations satisfies the old constraints exactly if it can be extended to the new ones. A group reported inconsistent has no solution; a finite group is not rejected. Groups are exactly the connected parts of the graph of the equations, and the relations used follow from the equations.", "quantifier": "all groups of linked integer variables (any number of variables, equations, coefficients, constraints, sets), all assignments, both option values, with and without an equality encoding", "why_tests_cant": "The domain is cut into subintervals by a sequence of interval operations with rounding tolerances; errors show only for particular coefficients, signs, adjacent or overlapping sets and fractional images.", "anchors": ["lib/MIPdomains.cpp:MIPD", "lib/MIPdomains.cpp:DomainDecomp::doProcess", "lib/MIPdomains.cpp:projectVariableConstr", "lib/MIPdomains.cpp:SetOfIntervals::cutOut", "lib/MIPdomains.cpp:SetOfIntervals::cutDeltas", "lib/MIPdomains.cpp:syncWithEqEncoding", "lib/MIPdomains.cpp:considerDenseEncoding", "lib/MIPdomains.cpp:createDomainFlags", "lib/MIPdomains.cpp:implementPOSTs", "lib/MIPdomains.cpp:relateReifFlag", "lib/MIPdomains.cpp:put2VarsConnection", "lib/MIPdomains.cpp:LinEqGraph", "include/minizinc/MIPdomains.hh"]}
{"id": "C80", "title": "The linear library's comparison, Boolean and linear predicates mean what they say", "statement": "For a MIP solver the comparisons b <-> x # y, b -> x # y, x != y (over integers, floats, constants and linear expressions) and the Boolean constraints (and, or, xor, clause, =, <=, < with their reified and half-reified forms, of two variables or arrays) are replaced by linear constraints over the variables and new 0-1 variables. An assignment satisfies the original constraint exactly if it can be extended to the linear ones, whatever the domains, the fixed variables and the options. For floats the translation is sound for all values and complete for values that are equal or at least the tolerance apart.", "quantifier": "all variables with any finite domain or bounds and any value in it, all constants, coefficients and lengths of arrays, all values of the options of the linear library", "why_tests_cant": "Each predicate has a case for every combination of fixed variables, bounds, domain holes and options; big-M constants are computed from bounds, and an off-by-one in one of them cuts off or admits solutions only for particular domains.", "anchors": ["share/minizinc/linear/redefs_lin_halfreifs.mzn", "share/minizinc/linear/redefs_lin_reifs.mzn", "share/minizinc/linear/redefs_lin_imp.mzn", "share/minizinc/linear/redefs_bool_reifs.mzn", "share/minizinc/linear/redefs_bool_imp.mzn", "share/minizinc/linear/domain_encodings.mzn", "share/minizinc/linear/options.mzn"]}
{"id": "C81", "title": "Arithmetic, element and set membership of the linear library mean what they say", "statement": "In the library for linear solvers, the constraints for absolute value, minimum and maximum, integer division and remainder, element, product and membership in a constant set hold of exactly the values with the stated relation, whatever the domains, bounds and options. Integer division rounds towards zero and excludes a divisor zero. Two exceptions: the float division alone accepts 0.0/0.0, and the product of two 0..1 variables accepts a negative result when both are zero.", "quantifier": "all finite domains and all values of the variables in them, all arrays, all constant sets with any gaps, all option settings", "why_tests_cant": "Each constraint chooses one of several encodings by the shape of the domains; the encodings and cuts must agree on every domain and value.", "anchors": ["share/minizinc/linear/redefinitions.mzn: int_abs, array_int_minimum_I, array_float_minimum_I, aux_int_division_modulo_fn, int_times, array_int_element, array_var_int_element, array_var_float_element, set_in, set_in_reif, set_in_imp, fVarInBigSetOfInt", "share/minizinc/linear/domain_encodings.mzn: equality_encoding, eq_encode", "share/minizinc/linear/redefinitions-2.0.mzn: array_int_maximum"]}
{"id": "C82", "title": "Global constraints of the linear library mean what the standard library says", "statement": "The redefinitions of all_different, alldifferent_except_0, inverse, circuit, subcircuit, cumulative, if_then_else, the lexicographic orders and their chains, table, sliding_sum, regular and the reified clause for linear solvers hold of exactly the values that the documentation of the constraint describes, whatever the domains and options and whichever of several decompositions is chosen. Exceptions: the reified inverse of an empty and a non-empty array, subcircuit of variables that can leave the index set, cumulative with tasks of duration 0 in the task decomposition, and lex_less of a proper prefix.", "quantifier": "all array lengths, all finite domains and all values in them, all automata and tables, all option settings and size limits", "why_tests_cant": "The decompositions introduce 0/1 variables and order variables and are chosen by domain sizes; that they have a solution for exactly the right values is a statement over all arrays and domains.", "anchors": ["share/minizinc/linear/fzn_all_different_int.mzn: fzn_all_different_int", "share/minizinc/linear/fzn_alldifferent_except_0.mzn: fzn_alldifferent_except_0", "share/minizinc/linear/fzn_inverse.mzn: fzn_inverse", "share/minizinc/linear/fzn_inverse_reif.mzn: fzn_inverse_reif", "share/minizinc/linear/fzn_circuit.mzn: fzn_circuit", "share/minizinc/linear/fzn_subcircuit.mzn: fzn_subcircuit", "share/minizinc/linear/fzn_cumulative.mzn: fzn_cumulative, cumulative_time_decomp, cumulative_task_decomp", "share/minizinc/linear/fzn_if_then_else_int.mzn: fzn_if_then_else_int", "share/minizinc/linear/fzn_lex_less_int.mzn: fzn_lex_less_int", "share/minizinc/linear/fzn_lex_lesseq_int.mzn: fzn_lex_lesseq_int", "share/minizinc/linear/fzn_lex_chain_lesseq_orbitope.mzn: fzn_lex_chain_lesseq_orbitope", "share/minizinc/linear/fzn_table_int.mzn: fzn_table_int", "share/minizinc/linear/fzn_sliding_sum.mzn: fzn_sliding_sum", "share/minizinc/linear/fzn_regular.mzn: fzn_regular"]}
{"id": "C83", "title": "Eliminating set variables keeps the meaning of every set constraint", "statement": "For a solver without set variables each set variable becomes an array of Booleans. Every value of the set variable corresponds to exactly one assignment of the Booleans and is printed back as that value. Every set constraint (equality, order, subset, superset, membership, cardinality, union, intersection, difference, symmetric difference, element of an array of sets), with its reified and half-reified form, is satisfied by the Booleans exactly when it is true of the sets. Sets are ordered by their increasing sequences of elements, as constants are. Exception: the reified <= leaves the control variable free when the left set is known to be empty.", "quantifier": "all finite upper bounds, with and without gaps, all values below them, fixed and not fixed sets and control variables, all arrays of sets and indices", "why_tests_cant": "The arrays have different index sets and accesses may leave them; the order is a chain of case distinctions whose length is the width of the bounds. Correctness is a statement over all bounds and values.", "anchors": ["share/minizinc/std/nosets.mzn: set2bools, reverse_map_ab2si, set_eq, set_eq_reif, set_eq_imp, set_ne, set_ne_reif, set_ne_imp, set_le, set_le_reif, set_le_imp, set_lt, set_lt_reif, set_lt_imp, set_subset, set_subset_reif, set_subset_imp, set_superset, set_intersect, set_union, set_diff, set_symdiff, set_card, set_in, set_in_reif, set_in_imp, array_var_set_element, array_set_element", "lib/builtins.cpp: b_lb_set, b_ub_set"]}
{"id": "C84", "title": "Cuts generated during a MIP solve never lose a solution and make circuit exact", "statement": "Every subtour elimination cut that the MIP interface generates holds in every circuit and is violated by the point it was generated for. An integer point that satisfies the assignment constraints is accepted exactly when it is a circuit, so circuit with cuts instead of order constraints has the right solutions. Every generated element cut holds whenever the result is the selected element and the elements are within their bounds; a cut is generated whenever one of the exponentially many element cuts is violated by more than 0.01, and it is the most violated one.", "quantifier": "all numbers of nodes and elements, all fractional and integer points, all bounds, all minimum cut algorithms that return a minimum cut", "why_tests_cant": "A wrong cut removes solutions only for some point of some instance, and a missing one accepts a wrong solution; which points the solver visits is not under the control of a test.", "anchors": ["solvers/MIP/MIP_solverinstance.cpp: SECCutGen::generate, SECCutGen::validate, XBZCutGen::generate", "include/minizinc/solvers/MIP/MIP_wrap.hh: CutDef, compute_sparse", "include/minizinc/solvers/MIP/MIP_solverinstance.hpp: p_sec_cutgen, p_xbz_cutgen", "lib/algorithms/min_cut.cpp: MinCut::solve", "share/minizinc/linear/fzn_circuit.mzn: circuit__SECcuts"]}
{"id": "C85", "title": "Operations on option types mean what the documentation says", "statement": "An optional variable can be given exactly absent and the values of its domain, in one way each when zero stands for absent. Comparisons and implications hold when a side is absent, equality treats absent as a value, absent is neutral for conjunction, disjunction, sum, product, minimum and maximum, subtraction and division keep the left side when only the right one is absent, and the weak operators are absent when a side is. Array access with absent indices or elements is absent, a domain only restricts the value that occurs, an objective prefers every value that occurs to absent. On parameters the same operators give the same results and are defined.", "quantifier": "all domains, all values and absence of the arguments, all arrays, both representations of absence, all hidden values of absent variables", "why_tests_cant": "An absent variable still carries a hidden value, and whether an operator ignores it depends on which value the solver happens to choose; tests see one choice on a few domains.", "anchors": ["share/minizinc/std/stdlib/stdlib_opt.mzn", "share/minizinc/std/stdlib/stdlib_compare.mzn: opt versions", "share/minizinc/std/stdlib/stdlib_logic.mzn: opt versions", "share/minizinc/std/stdlib/stdlib_math.mzn: opt versions, ~+, ~-, ~*, ~div, min_weak, max_weak", "share/minizinc/std/stdlib/stdlib_internal.mzn: var_dom, int_eq, bool_eq, bool_xor, element", "share/minizinc/std/stdlib/stdlib_array.mzn: array2set", "share/minizinc/std/fzn_array_opt_int_union.mzn", "lib/parser.yxx: precedence of \\/ and xor"]}
{"id": "C86", "title": "The file written for a nonlinear solver describes the FlatZinc problem, and its solution is read back", "statement": "For a problem sent to a nonlinear solver, the points that satisfy the written NL file are exactly the solutions of the FlatZinc problem, with the same objective value and direction. Variables have the positions the header announces (nonlinear first, integer ones last in each group), all counts in the header and the column counts are those of the segments, and every linear part lists all variables of its constraint. The values in the solution file are reported for the variables they belong to, and the status line is translated to the right verdict.", "quantifier": "all FlatZinc problems over the supported builtins, all points, all solution files", "why_tests_cant": "The solver only sees positions and operator codes; a wrong order, count or code gives a different problem that may have the same optimum on the tested instances.", "anchors": ["solvers/nl/nl_file.cpp: addVarDecl, analyseConstraint, linconsEq, linconsLe, linconsPredicate, nlconsEq, nlconsLe, nlconsPredicate, nlconsOperatorBinary, nlconsOperatorUnary, nlconsOperatorUnaryLog2, addSolve, phase2, printToStream", "solvers/nl/nl_components.cpp: NLBound, NLToken, NLAlgCons, NLLogicalCons, NLHeader, NLObjective", "solvers/nl/nl_solreader.cpp: NLSol::parseSolution, NLSolns2Out::parseSolution", "solvers/nl/nl_solverinstance.cpp"]}
{"id": "C87", "title": "Enumerated types have the declared values, and values are printed as the expressions that denote them", "statement": "The values of a declared enumerated type are the listed identifiers, anonymous members and constructor applications, numbered from 1 in the order of the declaration. Each listed expression denotes exactly one value and different expressions denote different values. A constructor is defined exactly on its argument set, keeps the order, and its inverse undoes it and is defined nowhere else, also on absent values, sets and arrays. A value is printed as the expression that denotes it, in plain text, in data files and in JSON; data file text is read back as the same value. enum_next and enum_prev are successor and predecessor and undefined at the ends, to_enum is defined exactly on the members.", "quantifier": "all sequences of enum declarations (any number and nesting of parts, constructors over other enumerated types, over sets of integers with or without holes, over subsets of enumerated types), all values", "why_tests_cant": "Offsets between parts, inverse tables for sets with holes and the dispatch between printing functions depend on the sizes and kinds of all parts together; tests use a few declarations.", "anchors": ["lib/typecheck.cpp: create_enum_mapper", "lib/parser.yxx: enum_init", "lib/builtins.cpp: b_to_enum, b_enum_next, b_enum_prev, b_set_sparse_inverse, b_set2array", "share/minizinc/std/stdlib/stdlib_enum.mzn: enum_next, enum_prev, to_enum", "share/minizinc/std/stdlib/stdlib_internal.mzn: mzn_set_is_contiguous, mzn_min_or_0"]}
{"id": "C88", "title": "The solver, the default options and the parameter files given are the ones that are used", "statement": "--solver selects the first installed solver that has all requested tags (identifier, name, last component of the identifier, tags) and versions, preferring the default solver of a tag; it reports an error exactly if there is none. The default options of a solver are the ones set for it, each once, with the last value. Extra flags accept exactly the values of their range. A parameter file stands for its options in the order of the file, options that are not allowed are rejected, and nested objects are split into their options again. Parameter files on the command line are replaced by their options at their place, relative names are relative to the directory of the file, and the replacement always ends.", "quantifier": "all lists of solver configurations, all requests, all lists of default options, all parameter files, all command lines and all finite sets of parameter files that refer to each other", "why_tests_cant": "The selection depends on the whole set of installed solvers and on overlaps between their tags; nesting and cycles of parameter files are unbounded.", "anchors": ["lib/solver_config.cpp: SolverConfigs::addConfig, SolverConfigs::config, SolverConfigs::defaultOptions, SolverConfig::ExtraFlag::validate", "lib/param_config.cpp: ParamConfig::load, ParamConfig::addValue, ParamConfig::modelToString", "lib/solver.cpp: MznSolver::processOptions", "docs/en/command_line.rst"]}
{"id": "C89", "title": "The Geas interface posts constraints that mean the FlatZinc constraints, and reports what the solver found", "statement": "For every FlatZinc constraint with arguments of its type, what is posted to the solver is satisfied by exactly the assignments that satisfy the constraint: comparisons and their half reified and reified forms, arithmetic, linear constraints, Boolean connectives and clauses, elements of arrays, counting, scheduling, cardinality and tables. A variable gets exactly the values of its domain. Excluding a solution excludes exactly the assignments with the same output. When solutions are enumerated they are distinct and complete when the status says so; when optimising, solutions do not get worse and the last one is optimal when optimality is reported; unsatisfiability is reported only if there is no solution. The definitions in the solver's library mean what their names say.", "quantifier": "all constraints, all literal and variable arguments, all array lengths, all assignments, all sequences of answers of a correct solver", "why_tests_cant": "The meaning of the posted constraints has to agree for all assignments and for every mix of literals and variables; the runs of a solver are unbounded.", "anchors": ["solvers/geas/geas_constraints.cpp: p_int_eq, p_bool_eq, p_int_lin_le_reif, p_array_var_int_element, p_global_cardinality, p_table_int", "solvers/geas/geas_solverinstance.cpp: registerConstraints, processFlatZinc, addSolutionNoGood, solve, resolveVar, asIntVar", "include/minizinc/solvers/geas_solverinstance.hh: asBool, asInt", "share/minizinc/geas/redefinitions.mzn", "share/minizinc/geas/fzn_value_precede_int.mzn"]}
{"id": "C90", "title": "Regular expressions given to regular accept exactly the documented sequences", "statement": "The text of a regular expression is read as documented: white space separates numbers, signs are the documented ones, names of enumerated types stand for their values, and a text outside the syntax is an error. The constraint holds for exactly the assignments whose sequence of values the expression accepts, where the wildcard and negated classes range over the domains of the variables.", "quantifier": "all texts, all domains of the variables, all arrays of any length, all assignments", "why_tests_cant": "There are infinitely many expressions and sequences; renumbering of values and states has to be right for all bounds of the domains.", "anchors": ["lib/support/regex/lexer.lxx", "lib/support/regex/parser.yxx", "lib/builtins.cpp: b_regular_from_string", "share/minizinc/std/regular_regexp.mzn: regular"]}
{"id": "C91", "title": "The MIP interface gives the solver a problem with the solutions of the FlatZinc model, and reports its answers truly", "statement": "For a FlatZinc model of variables, definitions and constraints that the MIP interface accepts: every declared variable has a column, every assignment to the columns that satisfies bounds, types, rows and general constraints gives values that satisfy all declarations and all constraints, every solution of the model is given by such an assignment, and the objective function is the value of the variable of the objective. A status is true of the model if the solver's answer is true of its problem: an optimal solution is a solution and none is better, and a problem reported unsatisfiable has no solution. Integers and Booleans are read correctly from values that are off by less than one half. A row has every column once. User cuts and lazy constraints are marked as such. Search annotations become priorities in the order written, with their strategies, and warm starts are passed with each value at its variable.", "quantifier": "all lists of declarations and constraints, all literal and variable arguments, all lengths of arrays, all assignments to variables and columns, all answers of a correct solver, all nestings of annotations", "why_tests_cant": "The sets of solutions of two problems have to agree, for every mix of literals and variables in every argument; tests solve single instances.", "anchors": ["include/minizinc/solvers/MIP/MIP_solverinstance.hpp: processFlatZinc, exprToVar, p_lin, p_non_lin, p_indicator_le0_if0, p_indicator_eq_if1, p_cumulative, p_lex_lesseq_binary, p_lex_chain_lesseq_binary, p_bounds_disj, p_array_minimum, p_times, remove_duplicates, registerConstraints, solve, getSolutionValue, processSearchAnnotations, processWarmstartAnnotations", "solvers/MIP/MIP_solverinstance.cpp: get_mask_cons_type", "include/minizinc/solvers/MIP/MIP_wrap.hh: addVar, addLitVar", "lib/eval_par.cpp: follow_id_to_decl", "lib/solver_instance_base.cpp: flattenSearchAnnotations"]}
{"id": "C92", "title": "Constraints posted to Gecode mean what the FlatZinc constraints mean", "statement": "For every FlatZinc constraint on integers and Booleans that the Gecode interface posts, with any mix of variables and literals in its arguments: exactly the assignments that satisfy the FlatZinc constraint can be extended to the variables the poster creates so that all posted Gecode constraints are satisfied. This covers comparisons, linear constraints, arithmetic, Boolean operators, clauses, elements, membership, their reifications and half-reifications, and the global constraints (distinct, ordering, lexicographic order, counting, global cardinality, extrema and their positions, regular, sorting, inverse, tables, sliding windows, tasks and boxes that do not overlap, precedence, bin packing, cumulative resources).", "quantifier": "all integer and Boolean arguments within Gecode's range, all lengths of arrays, all domains of the variables at the time of posting, all assignments", "why_tests_cant": "A poster chooses among Gecode's constraints by looking at domains, literals and lengths; each choice has to have the same solutions for all values, and tests solve single instances.", "anchors": ["solvers/gecode/gecode_constraints.cpp: p_int_eq, p_int_lin_CMP, p_bool_lin_CMP, p_array_bool_clause, p_array_int_element, p_int_in, p_count, p_bin_packing_load, p_global_cardinality, p_regular, p_inverse_offsets, p_table_int, p_cumulatives, p_sliding_among_int", "solvers/gecode/gecode_solverinstance.cpp: arg2intvar, arg2boolvar, arg2intargs, arg2intvarargs, arg2boolvarargs, isBoolArray, registerConstraints"]}
{"id": "C93", "title": "Copying a model gives a separate model of the same shape", "statement": "Copying the items of a model with one copy map terminates, changes no existing object and yields for each item a copy such that the same paths of references lead to objects of the same kind and content, which are all new except for shared constants. Objects shared in the original, within an item or between items, also through cycles, are shared in the copy, and different objects stay different except that all identifiers of one declaration become one. The identifier of a copied declaration refers to the copy.", "quantifier": "all well-formed object graphs with sharing and cycles, all lists of root items", "why_tests_cant": "Sharing and cycles interact with the moment at which a copy is registered in the map; tests copy a few models and compare the printed text, which does not show sharing or references into the original.", "anchors": ["lib/copy.cpp: copy, CopyMap::insert, CopyMap::find", "include/minizinc/copy.hh: CopyMap"]}
{"id": "C94", "title": "Path files name variables by the right array accesses", "statement": "In the path file of a compiled model, a variable that is an element of an output array is named by an array access whose value it is: the indices are in the index sets and lead to this variable in row-major order. No two variables get the same array access. Other variables are named after the first of their paths that gives a name. The path of a variable is the first one its declaration is annotated with, whether or not it is in arrays.", "quantifier": "all lists of declarations, all numbers of dimensions and index sets, all elements, all orders of declarations and annotations, all functions that make names from paths", "why_tests_cant": "The indices are computed from the number of the element by division with remainder for any number of dimensions, and later declarations overwrite or keep earlier names; tests show single arrays.", "anchors": ["lib/pathfileprinter.cpp: PathFilePrinter::buildMap, PathFilePrinter::addBetterName", "include/minizinc/pathfileprinter.hh: PathFilePrinter"]}
{"id": "C95", "title": "Black-box propagators call the external function on their variables", "statement": "A declaration of a black-box propagator gets a generated body exactly if it is as documented, and an error otherwise; declarations without the annotations are left alone. The body of a predicate is true exactly if the external function, applied to the integers and floats among the arguments, gives the single output 1. The body of a function has the outputs of the external function as its value if there are as many as the par overload announces, and no value otherwise. A bounds propagator gets the variables of its lists and the user's reasons, and by default reasons in which every bound explains every change. The numbers that are passed for the reasons can be read back.", "quantifier": "all declarations, all orders of parameters, all values of the arguments, all external functions, all lists of reasons", "why_tests_cant": "The parameters are sorted into lists by their types whatever their order and number, and the external function is unknown; tests compare the FlatZinc of a few declarations.", "anchors": ["lib/blackbox.cpp: synthesize_blackbox_bodies, wrap_blackbox_source", "share/minizinc/std/experimental/blackbox.mzn: blackbox, blackbox_bounds, blackbox_flatten_literals, blackbox_default_reason", "docs/en/blackbox.rst"]}
{"id": "C96", "title": "External solvers are started with the options the user asked for", "statement": "Whatever options a user gives for an external FlatZinc solver, in any order, number and spelling, the solver process is started with exactly the arguments meant for it in the order given, the standard options its configuration declares with the last value given, and the FlatZinc file; it is stopped after the time limit, or after limit plus grace period if it watches the limit itself. Options that neither the driver nor the solver knows are rejected. All or intermediate solutions are asked for as the user's last word on them says, by the flags the solver declares.", "quantifier": "all lists of options in all their spellings, all sets of flags declared by a solver configuration, all values", "why_tests_cant": "The options are read by a chain of more than twenty prefix and equality tests on the current word; whether an option is shadowed by an earlier one depends on the words, the values and the declared flags, and their combinations are unbounded.", "anchors": ["solvers/fzn/fzn_solverinstance.cpp: FZNSolverFactory::processOption, setAcceptedFlags, FZNSolverInstance::solve", "include/minizinc/solvers/fzn_solverinstance.hh: FZNSolverOptions", "include/minizinc/utils.hh: CLOParser::getOption", "lib/solver.cpp: MznSolver::processOptions (-a, -i and variants), MznSolver::run"]}
