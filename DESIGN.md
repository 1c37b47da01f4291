# Formal model of spade-lang/spade in Lean 4

## Layout

* `properties.jsonl` – the properties in English (generated by `tools/gen_properties.py`).
* `lean/Verif/<Area>/Model.lean` – definitions that follow the Rust code function by
  function; every definition cites the file and lines it models.
* `lean/Verif/<Area>/Spec.lean` – the small independent specification (semantics of values,
  patterns, schedules, ...) that the property theorems refer to.
* `lean/Verif/<Area>/Lemmas*.lean` – proof machinery.
* `lean/Verif/<Area>/Props.lean` – the property theorems, each followed by an `example`
  showing that its hypotheses are met by a concrete non-trivial case.
* `AXIOMS.md` – the axioms of every theorem in the manifest; `DISCREPANCIES.md` – every place where the
  code was found to depart from a property (both written by `tools/gen_reports.py`).
* `MANIFEST.json` – property → theorem names; `seeded/LOG.jsonl` – seeded-bug experiments.

## Conventions

`&mut self` methods return the new state; loops are recursion or folds; `HashMap`s are
association lists or functions; `BigInt`/`BigUint` are `Int`/`Nat` (unbounded, as in `num`);
`panic!`/`unreachable!`/`unwrap` are an explicit `none`/error result.  Source locations,
diagnostics text, tracing and performance are not modelled.

## Trusted base

Lean 4.33 kernel, and the axioms `propext`, `Classical.choice`, `Quot.sound`.  No axioms are
added, no `sorry`, no `native_decide`, no `bv_decide`.  In addition one has to trust that the
Lean definitions transcribe the cited Rust code, and the small models of the environment: bit
semantics of the Verilog expressions the code generator emits, and synchronous semantics for
registers.  The part "Modelled / not modelled" below lists the limits area by area.

Facts about things outside the repository that the models rely on:

* Verilog: sizing, signedness and truncation of expressions, `casez`, part selects, `always @(posedge clk)`
  (`Verif/Verilog/Sem.lean`, `Verif/Mir/Clocked.lean`); unknown (`x`) values arise only where a definition says so.
* `Span::new` and `Span::merge` of spade_codespan; `to_str_radix` and the arithmetic of `num`.
* One atomic instruction on one location is one step of a thread, also with relaxed ordering; blocks of the
  bump arena never overlap and are never freed (C36).  Lock guards make critical sections atomic (C32).
* cocotb indexes signals declared `[N:0]` from the right (C35).

## Modelled and not modelled, area by area

| area (directory) | modelled code | left out |
|---|---|---|
| Match | spade-hir-lowering/src/{usefulness,pattern}.rs, refutability of let/reg patterns | widths above 2^128 (panic), text of the witnesses |
| Verilog, Codegen, Types | spade-mir/src/{types,enum_util,eval}.rs, forward and backward expression code of codegen/mod.rs, the intrinsics of hir-lowering that give these operators, concrete type inversion | simulation-only code, file-initialised memories, text formatting |
| Hir | spade-hir/src/param_util.rs | method receivers (an ordinary argument) |
| Impl | spade-hir/src/impl_tab.rs | – |
| Mir | spade-mir/src/{aliasing,renaming,diff}.rs, passes/{flatten aliases, auto_clock_gating, split_compound_regs, deduplicate_mut_wires}.rs, names of codegen/util.rs and unit names | wal tracing, verilator wrapper |
| Linear | spade-hir-lowering/src/linear_check | registers, stages, array shorthand |
| Infer | meta kinds, ReplacementStack, type-level arithmetic, requirements for literals, ranges and stages, unify | error type, trait parameters, the traversal of units that produces the constraints |
| Parse | `expr_bp` of spade-parser/src/expression.rs | suffixes of operands, all other syntax, the lexer |
| Mono | spade-hir-lowering/src/monomorphisation.rs | panics, lambda body replacement |
| Pipe | spade-hir-lowering/src/{pipelines,substitution}.rs | bodies other than statements over variables, operators and instances |
| Lower | patterns and `match` of spade-hir-lowering/src/lib.rs | guards and results are arbitrary lowered statements |
| Symtab, Loc, Ids | spade-hir/src/symbol_table.rs, spade-common/src/{name,location_info,loc_map,id_tracker,interning}.rs | lookup barriers, deprecation notes |
| Inline | spade-hir-lowering/src/inline.rs | type state |
| Vcd | vcd-translate/src/translation.rs | more than `usize::MAX` bits |
| Expr | expressions, statements, calls and intrinsics of spade-hir-lowering/src/lib.rs:938-3560 for functions; `MirTypeList` (spade-mir/src/type_list.rs) | registers, memories, ports, pipelines, labels; method and lambda calls (replaced earlier) |
| Entity | registers with clock, reset and initial value, instances, the compile time check of initial values and `generate_unit` for entities (spade-hir-lowering/src/lib.rs:94-186, 938-1098, 3660-3832); clocked memories with any number of write ports, initial values and reads (lib.rs:2572-2683); `reg` and memory code of spade-mir/src/codegen/mod.rs:512-610,1054,1118-1155 as transition rules on stable instants | registers in inner blocks, `set`, memories passed to other units, memory initialisation from files, ports and inverted types, attributes; delta cycles, glitches and X at start (uninitialised registers have an arbitrary value) |
| Method | spade-typeinference/src/method_resolution.rs, `ensure_unique_anonymous_traits` and `get_impl_target` of spade-ast-lowering/src/impls.rs | `methods_for_type` (completion), text of errors; type variables are resolved trees |
| Check | unification with trait parameters and search for implementations, constraints and requirements (spade-typeinference/src/lib.rs:2985-3720, requirements.rs), creation of generic lists with bounds and `where` clauses (lib.rs:1743-2003, 2676-2886), `visit_expression`, `visit_pattern`, `visit_statement_error`, `visit_register`, `handle_function_like` and special functions (lib.rs:1152-1728, 2050-2673, expression.rs), `visit_unit_with_preprocessing` and the types given by monomorphisation | error recovery (`KnownType::Error`), methods, lambdas, pipelines, aliases, obligations and `Data` constraints of type declarations, tristate literals, default arguments; recursion bounded by fuel |
| Trait | the checks of an impl block against its trait (spade-ast-lowering/src/impls.rs:36-252, 580-665, 711-1425), method table of `add_trait` | lowering of the heads themselves (name lookup gives distinct names: hypothesis `Scoped`), where clauses, anonymous impls, registration in the impl table (see Impl), cycles of supertraits; operators on type level values are uninterpreted |
| GenIf | `gen if`: `absorb_statements`, `expand_type_level_if` (spade-ast-lowering/src/type_level_if.rs:46-267), `LowerTypeLevelIf` (spade-hir-lowering/src/passes/lower_type_level_if.rs) for each list of generic arguments | operators, type level expressions and values are arbitrary functions; generic arguments are passed as one list (the expansion names only the unit's own type parameters in the call, the others are left to inference); inlining of the new units; scopes (names are resolved) |
| Lambda | lambdas: `visit_lambda`, `handle_unit_kind` (spade-ast-lowering/src/lambda.rs), lookup of variables through lookup barriers (spade-hir/src/symbol_table.rs:1219-1283), patterns, statements and blocks of spade-ast-lowering/src/lib.rs as far as they bind and look up variables, `LambdaReplacement::replace_in` and `LowerLambdaDefs` (spade-hir-lowering/src/passes/lower_lambda_defs.rs), replacement in `compile_items` (monomorphisation.rs:345-355) | types are left out: the type of a lambda is the struct made for it with its generic arguments; operators are arbitrary functions; names of the made up type parameters (they may clash with the user's); pipelines' stages; `decl` |
| Fifo | `fifo`, `fifo_write`, `fifo_read` (spade-compiler/stdlib/mem.spade), `sync_uint_counter` (cdc.spade), Gray codes (num.spade), one step per edge of either clock or of both | setup and hold are not modelled apart from simultaneous edges, where each bit that changes is sampled as the old or the new one; a register that samples such a bit settles before the next edge; the compilation of the code to hardware (see Expr, Entity) |
| Cdc | `sync_wide`, `handshake`, `sync2_bool` (spade-compiler/stdlib/cdc.spade:13-188) | as for Fifo; a wide signal that changes during an edge is sampled as any value |
| Std | functions on arrays (spade-compiler/stdlib/array.spade:15-609), operators (core/ops.spade:20-471), conversions, numbers and options (stdlib/{conv,num,ops,option}.spade) as programs of the source language of C45 | monomorphised, `gen if` replaced by the selected branch (C53), methods resolved (C50), lambdas replaced by units (C54), `#[inline]` ignored; `transpose`, `Default`, the entities on options and deprecated aliases left out |
| Elab | types, patterns, expressions and units with the types inference reports for them: spade-typeinference/src/mir_type_lowering.rs, spade-hir-lowering/src/lib.rs:845-2540, 3660-3860 | inverted types, memories, `gen if`, registers, methods, lambdas, pipelines; the numbers of instances are given (C34) |
| Decl | the search for type declarations that contain themselves and the layout of declarations: spade-ast-lowering/src/global_symbols.rs:712-1111, spade-typeinference/src/mir_type_lowering.rs:84-273 | locations, the other checks on declarations (wires, inouts, duplicate variants), trait `Self`, translators of fields |
| Super | the check for circles of supertraits and the bounds of generic parameters: spade-ast-lowering/src/impls.rs:515-577, spade-typeinference/src/lib.rs:1927-1951, 2700-2763 | locations, heads of methods, associated types; arguments other than a generic parameter or a type without parameters; what happens to the bounds afterwards (Trait) |
| Lex | the rules of the lexer with the longest match, comments, number, character and string literals: spade-ast/src/token.rs, spade-parser/src/lib.rs:437-556, 870-915, 3146-3215, spade-parser/src/expression.rs:170-213 | `logos` itself (taken to find the longest match, and after an error to go on one character later), the Unicode classes (a parameter that is the usual one on ASCII), locations |
| Auto | the implementations of `Data` and `Copy` by the compiler and in marker.spade, and the conversion of types to concrete types: spade-ast-lowering/src/auto_traits.rs, spade-compiler/core/marker.spade, spade-typeinference/src/mir_type_lowering.rs:276-350 | locations of witnesses; `resolve_recursive_inversions`, which only removes pairs of `inv`; that nobody else implements the two traits is an assumption |
| Stream | the entities on streams and signals in spade-compiler/stdlib/option.spade:184-247 and io.spade:11-29, as programs of the source language of C47 that use the library of C58 | the value that the array register of `chunks` starts with is explicit: it has neither a reset nor an initial value |
| Pass | the traversal `Passable::apply` (pass.rs) and the passes flatten_regs.rs, disallow_zero_size.rs, disallow_inout_bindings.rs; `Checked` joins the check of operands to C62 | statements are visited one after the other, replaced statements are plain `reg;`; concrete types are MIR types; error messages, the passes for lambdas and `gen if` (modelled in Lambda and GenIf) and methods |
| Cxx | the wrappers for Verilator: spade-mir/src/verilator_wrapper.rs, spade-cxx/src/spade.rs:46-66; the C++ is modelled by what it does (assignment to integers and words, `std::bitset`, classes and their members) | the text of the C++ file, constructors, `cxx`; that Verilator keeps a port of up to 64 bits in an integer of 8, 16, 32 or 64 bits and a wider one in words of 32 bits is part of the specification; widths from 2^53 on, where the number of words is computed with floating point numbers |
| Units | the names of modules and of the modules in instances: spade-ast-lowering/src/lib.rs:1292-1382, type_level_if.rs:103-113, spade-hir-lowering/src/monomorphisation.rs:106-157 (with Mono), spade-hir-lowering/src/lib.rs:203-224, 2366-2416 | units without a body, which have no module; that identifiers have no `:`, `[` or `#` and that no two units are at the same path is assumed |
| Editor | positions in the language server: spade-language-server/src/util.rs:23-60, 64-93; of the library codespan-reporting, which is not in the repository, `line_starts`, `line_index`, `line_range`, `column_index` and `location` are modelled as released | URLs (taken to be paths), 32-bit arithmetic, what is looked up at a position (see Loc) |
| Hier | signals of waveforms: the insertions into the name map of a module (spade-mir/src/codegen/mod.rs:45-190, 1318-1430; renaming.rs:12-51), the map of instances (unit_name.rs:39-106; spade-compiler/src/lib.rs:806-831), `source_of_hierarchical_value` and `type_of_hierarchical_value` (compiler_state.rs:334-446); the identifiers of a module are those of Mir (C14); descriptions of signals (Demangle): spade-hir-lowering/src/statement_list.rs:20-98, name_map.rs:1-117, `demangle_string` (compiler_state.rs:204-241) | error messages, reading the state from a file, `ungenerify_type`, names with backslashes, translation of values (see C29) |
| Files | arguments of the compiler: `namespaced_file` (spade-compiler/src/namespaced_file.rs:17-90) and the parser of paths (spade-parser/src/lib.rs:191-244) on the tokens of Lex; reading of the files and texts of errors are not modelled |
| Query | names and expressions for the language server: the visitors of `QueryCache` (spade-query/src/lib.rs:27-395) over the bodies of units, `names_around`, `id_to_expression`, the name at the cursor (spade-language-server/src/util.rs:109-115), `name_source_of_hierarchical_value` (compiler_state.rs:243-271), completion of local variables (spade-language-server/src/completion/locals.rs:8-90); types, type declarations, paths, namespaces and other completions are not modelled |
| Sim | spade-simulation-ext/src, field writes of spade-python | compilation of expressions (oracle), comparison of values |

Not modelled at all: the standard library apart from `array`, `conv`, `num`, `ops`, `option`, `fifo`, `cdc`, Gray codes and edge detectors, parser of items, AST lowering of items, macros for the language server, the rest of the language
server, diagnostics, Surfer plugin, the build of projects.

## Plan per property

| id | modelled | proof |
|----|----------|-------|
| C01–C04 | usefulness algorithm (`is_useful`, constructor splitting, `from_hir`), values and pattern matching as spec | well-founded recursion for termination; induction on the recursion for soundness/completeness; counterexamples for the integer-range and opaque type defects |
| C05 | pattern `condition`, `Match` lowering to `priority casez` | induction on patterns / arm list |
| C06–C09 | MIR types, sizes, and the Verilog expression emitted per operator, as expression AST with bit-list semantics | induction on types and lists |
| C10, C11 | `Value`, `as_string`, `width`, `eval_statements` | arithmetic on two's complement, induction on value |
| C12 | emitted arithmetic expression with Verilog sizing rules | arithmetic with `omega`/`Int.emod` |
| C13 | `flatten_aliases` on netlists | valuation equivalence via cluster representative |
| C14 | `make_names_predictable`, `var_name`, `InstanceNameTracker` | invariant over the fold |
| C15, C16, C39 | MIR passes on netlists with registers | trace induction |
| C17 | `LinearState`/`LinearTree` operations | invariants over operations |
| C18 | `unify_meta` | denotation of kinds |
| C19 | `ReplacementStack` | invariant by induction over operations |
| C20–C22 | `evaluate`, `Requirement::check` | induction, arithmetic |
| C23 | `unify_inner` over a type-variable store | induction over the call tree |
| C24, C41 | symbol table scopes, namespaces, path resolution | induction over operations |
| C25 | `match_args_with_params` | list induction |
| C26 | `ImplTab::insert`, overlap | invariant over insertions, mutual induction |
| C27–C30 | `Substitutions`, `handle_statement`, `lower_pipeline` | trace semantics and induction over stages/cycles |
| C31 | Pratt loop `expr_bp` | induction on tokens; uniqueness of precedence-correct trees |
| C32 | MonoState transition system | invariant over all interleavings |
| C33 | `perform_inlining`/`finalize` | fresh renaming and valuation extension |
| C34 | `inner_translate_value` | induction on types |
| C35 | field ranges | induction on field path |
| C36 | id trackers and interner | invariant over interleavings |
| C37 | `compare_entity` | construct renaming from var map |
| C38 | `size`, `backward_size` | mutual structural induction |
| C40 | `Loc` merging, `LocMap` | list induction |
| C42–C44 | comparison, conversion and arithmetic operators of codegen | arithmetic on bit lists |
| C45 | `Expression::lower`, `Statement::lower`, `handle_call`, `generate_unit` for functions; big-step evaluation as spec | induction on the evaluation derivation |
| C46 | the same lowering, with names and scopes as name resolution gives them and calls without recursion | every item list drives distinct signals in dependency order (mutual induction on the source), each item has a value (totality of the generated code), then induction on the call rank |
| C47 | lowering of registers and instances, `eval_statements` on initial values; spec: mutually inductive values of variables, expressions and registers over time with partially known inputs | induction on the derivation that the source gives a value; initial values: the evaluator on lowered constants agrees with evaluation |
| C48 | the same, entities as machines whose states are snapshots of all signals | sort statements by dependency and settle them one after another at each instant, choice of successive snapshots, induction on the instantiation rank; loops: registers first, then source order |
| C49 | overlap of impl headers with partially known types, candidate choice; spec: instances of headers (as in C26), completions of types | induction on headers: `yes` holds and `no` fails for all completions, definite answers are stable; uniqueness of anonymous impls from the overlap check |
| C50 | packed write ports and the `always` block of clocked memories, unpacked arrays in Verilog; spec: `Cell` (value stored at an address over time), `lastWrite` | bit offsets of port k by induction on the ports; C47's induction extended with a case for memories; C48's machine extended with stores |
| C51 | all of Check; spec: declarative typing of units on ground types (`UnitOk`), `Implements` (instances of impls) | backward reasoning: every solution of the state after a step solves the state before it and satisfies the step's typing rule; composed over unification, requirements and the visitors; the types read off a finished state are a solution |
| C52 | all of Trait; spec: meaning of written types (`Ty.den`) and `Honours` | meanings are preserved by replacing `Self`, associated types and parameters; equal types after replacement have equal meanings under every choice of concrete types |
| C53 | all of GenIf; spec: big step meaning of units with `gen if` and the number of stages | absorbing statements keeps value and stages of every branch; simulation between source and expanded program in both directions by induction on the depth of calls; induction on the height of the body for termination |
| C54 | all of Lambda; spec: environments and closures, big step with a bound on nested calls | invariant: captures of every barrier resolve outside to what was captured, and outer barriers know them; every name in the lowered expression is new or known to all barriers passed; logical relation between structs and closures; simulation with equal bounds, both directions |
| C55 | all of Fifo; spec: accepted and taken values of a history | invariant relating pointers, synchronised Gray codes (adjacent ones differ in one bit, so a mixture of both is one of them) and memory to the queue; reset lemma from any state |
| C56 | Wide of Cdc; spec: positions in the list of inputs | the two state machines and synchronisers go through fourteen phases; invariant per phase, induction over edges |
| C57 | Hand of Cdc; spec: values sent and received, gaps | as C56; rank that decreases with every edge that matters |
| C58 | Std; spec: functions on lists (`++`, `take`, `drop`, `map`, `foldl`, `parts`, `windows`, …), `Computes`: returns this and nothing else | splitting and joining by `transmute` is shown on encodings; strong induction on the length; uniqueness by determinism of evaluation; acceptance per function; hardware by C45 |
| C59 | Std; spec: `Wrapped` (in range and congruent modulo 2 ^ N), `bitOf`, integer order, `Decides` (what the `==` of a type decides), `AllRelated` | evaluation of the units; bits of numbers by `bitList`/`bitSum`; acceptance and hardware by C58_accepted and C58_hardware_partial; == on arrays is refuted |
| C60 | Std; spec: `bitList`, `byteList`, `Int.natAbs`, `min`, `max` | as C59; byte orders by C58 |
| C61 | Std; spec: cases `Some`, `None` | as C59 |
| C62 | Elab on top of Check and Expr; spec: values of the source (`Value`, Elab/Eval.lean), `Coherent` (both see the same declarations), `Sized` (conditions on widths) | ground types determine the types in heads, so a call and the instance it refers to have the same types; induction on typed expressions; then C51, C45 and C46. Elab/ResolvedSpec.lean says what is asked of names in the source (`SourceResolved`), and induction on elaboration carries it over |
| C63 | Decl; spec: `Mentions`, `Reaches`, `NoCircle`, `WayBack` (Decl/Spec.lean); the name taken from the hash set is left open | the known types never have a circle, so names have ranks and weights: the pending weights fall at every turn; ghost set of visited names for acceptance, recorded edges for rejection; layouts by induction on the rank |
| C64 | Lex; spec: `Written` numbers, `Spelling` of characters (Lex/Spec.lean) | lengths of the matches of each rule; the match of the number is the longest; back from matches to `Written` |
| C65 | Lex; spec: `Body` of a block comment, `Gap` between tokens (Lex/Spec.lean) | a match that begins with neither a delimiter nor a quotation mark stops before the next delimiter; induction on the length of the text; counterexamples for `//` and quotation marks in comments |
| C66 | Auto; spec: `Fit` on concrete types (Auto/Spec.lean) | induction on the depth of the layout and on the derivation that a type implements the trait; the converse by induction on the type; counterexamples for views, tuples of nine members and parameters that are not used |
| C67 | Stream; spec: streams, values taken since the last reset, windows, chunks, samples (Stream/Spec.lean) | induction on time for the contents of the registers; C47 for the hardware; C48 for the existence of the hardware in the examples |
| C68 | Pass; spec: `Exp.Has` (what is inside of what), `Supported`, `Exp.unroll`/`staged`, `InoutOk` | mutual induction on trees for any pass that only checks, then each check; for `reg*N` the tree and the stages; counterexamples for `inout` in tuples and in arms and for empty arguments of intrinsics; with C62: the conditions on operands follow from the check |
| C69 | Expr/TypeList (`MirTypeList`) on top of Expr; spec: Expr/CompileSpec (`Compiles`, `declares`), Elab/CompileSpec (`Translatable`, on the source) | mutual induction on typed expressions: every `none` of the lowering is excluded by typing or by the condition, in both directions; the type list by distinctness of driven signals (C46); counterexample for `[]` patterns |
| C70 | Super; spec: `HasSuper`, `Below`, `NoCircle`, `WayUp`, `Required` (Super/Spec.lean); the name taken from the hash set is left open | names not seen plus pending names fall at every turn; what is seen is closed under supertraits up to the pending names; recorded edges always lead back because an edge is never overwritten; the queue of bounds by the cost of the bounds not seen |
| C71 | Cxx; spec: `Port`, `Fits`, `wire`, `Carries`, `Compiles`, `Select`, `At` (Cxx/Spec.lean) | digits to the base 2^32 bit by bit; the assigned words are all words of the port; names of classes are injective in paths without underscores; objects selected by induction on paths; joined to C35 |
| C72 | Units, Mono; spec: `Linked` (Units/Spec.lean) | texts of paths and numbers are injective; numbers are unique by C32; an invariant that units without parameters keep their numbers |
| C73 | Editor; spec: `position`, `units`, `size` (Editor/Spec.lean) | a text is divided at its last line feed in front of the place; the starts of lines are in increasing order; character boundaries are counted by induction |
| C74 | Hier; spec: `Carries`, `HasInstance`, `Leads` (Hier/Spec.lean) | every entry of the map is paired with the role of an identifier; roles are unique and so are their identifiers (C14), so entries for one identifier agree; the walk by induction on the path |
| C75 | Hier/Demangle; spec: `MadeFor`, `Describes`, `MapOf` (Hier/DemangleProps.lean), `Carries` | induction on how a list of statements is built; identifiers made of numbered names are split at their last underscore, so different values have different identifiers |
| C76 | Files; spec: `Word`, `written`, `pathTokens`, `Names` (Files/Spec.lean) | the longest match at a name of a path and at `::` (as in Lex), then induction on the path; the steps given to the lexer suffice by induction on the text |
| C77 | Query; spec: `Part`, `Within`, `Mentions`, `Occurs` (Query/Spec.lean), `WrittenAs` (Query/Source.lean) | what is inserted for a piece is what it mentions and what is inserted for its parts; induction on the size of pieces; with C40 and C74 |
| C78 | Query/Locals; spec: `Binds`, `Introduces`, `InScope` | what is offered is described exactly with C40 and the visitors of C77, then compared with the scopes |
