# Formal model of gprolog in Lean 4 — design

Source: `/repo` (didoudiaz/gprolog, pinned commit, read as text, 64-bit configuration).
Model and proofs: `/verif/lean/Verif/`. One directory per part of the system:

* `<Part>/Model.lean`  – the code, function by function, each definition citing file and lines;
* `<Part>/Lemmas.lean` – helper lemmas about the model;
* `<Part>/Props.lean`  – the property theorems, stated against a small independent spec, each
  followed by an `example` showing a concrete non-trivial instance of its hypotheses.

## Plan: what is modelled and how it is proved

| id | part | model | proof shape |
|----|------|-------|-------------|
| C01 C02 | `HashTbl` | hash_tbl.c: array of chains, locate/insert/find/delete/realloc/first/next | refinement to a finite map; invariant by induction over operation histories |
| C03 | `Atom` | atom.c: open-addressing table, Locate/Add/Find | invariant (probe chains unbroken) over histories; refinement to an injective naming |
| C04 | `Oper` | oper.c over the HashTbl model plus op_mask | refinement to a map (name, kind) → definition |
| C05 | `Tag` | wam_archi.def / wam_inst.h tag macros on `BitVec 64` | round-trip laws |
| C06–C09 | `Arith` | arith_inl_c.c fast integer functions on `Int` with the exact overflow tests of the C code | exact-or-error theorems; counter-examples where the code is wrong |
| C10 | `Term` | Pl_Term_Compare on terms with variables ordered by address | order laws by mutual induction |
| C11 C12 | `Sort` | Merge_Sort on arrays (base, aux, in place) and list variants | sorted/permutation/stability by induction |
| C13 C14 | `Unify` | heap of cells, DEREF, Bind, Unify, Unify_Occurs_Check | soundness, mgu, completeness w.r.t. finite terms |
| C15 | `Wam` | choice-point stack, trail (TUV/TOV/TMV/TFC), bind, cut, backtrack | invariant: shadow copy of memory per choice point |
| C16 C17 | `CopyTerm` | Copy_Term_Rec over the heap model, Copy_Contiguous_Term | restoration + variant theorem; relocation theorem |
| C18 C19 C20 | `Dyn` | dynam_supp.c: clause chains, indexes, stamps, scans, erase and reclaim | refinement to the logical update view over all histories |
| C21 C22 | `AllSol` | all_solut_c.c/.pl solution stack, grouping | induction over nested executions |
| C23 C24 | `FdRange` | fd_range.c intervals and bit vectors | set-semantics per operation |
| C25 C26 | `Fd` (Tell, Queue, Cstr) | fd_inst.c tells, queue, propagation loop | soundness/fixpoint by loop invariant |
| C27 | `Fd` (Trail) | fd_inst.c memory of the frames, conditional trailing with stamps, choice points | invariant with a copy of the memory per choice point; refinement to the tells of C25 |
| C28 | `Switch` | wam_inst.c switch tables, ma2asm.c dichotomic integer switch, wam2ma.c choice of switch_on_term | refinement to a finite map |
| C29 | `Mangle` | mangling.c | round-trip/injectivity |
| C30 | `GVar` | g_var_inl_c.c elements, undo records, trail | refinement to snapshot semantics |
| C31 C32 | `SubAtom` | atom_c.c sub_atom/atom_concat with alternatives | enumeration = specification list |
| C33 | `Quote` | Show_Atom + Add_Atom properties + lexer | round trip |
| C34 | `ListBip` | list_c.c on the memory of `Unify` (St), with the Get/Unify instructions | the clauses as inductive relations indexed by the number of recursive calls; each result of the call and of the retries is the answer of one index, in increasing order (`Follows`), by a simulation between states (`Sim`) |
| C35 | `RegAlloc` | reg_alloc.pl, inst_codif.pl whole (the highest register used is left out); effects of the instructions on the registers stated apart from the codification, after wam2ma | interference invariant of the backward traversal (two live registers are incompatible or equal, by soundness of the aliases), invariant of the collapsing/assignment with explicit variable bindings, simulation for every world |
| C36 | `Stream` | stream_supp.c: push-back stacks, getc, ungetc, peekc, end_of_stream, get/set position, set_position_lc, get_key; seek/4; source = fixed codes with an offset | simulation of a stream that is only (codes read, codes to read); the ring buffers hold the last codes / line lengths; invariant for the remembered lengths |
| C37 | `Verif/Catch`: machine with the chain of choice points (addresses, BB links), continuation, system variables 7 (handler) and 8 (ball), query stack, for catch.pl, throw.pl, Pl_Throw_2, Pl_Cut, Pl_Soft_Cut; bindings abstract. Spec: answer sequences with endings, no stack. Proved by simulation, one lemma per rule, induction on the derivation. |
| C38 | `BtString` | bt_string.c | refinement |
| C39 | `Verif/Path`: Pl_Absolute_Path_Name0 (expansion of variables into a bounded buffer, `~`, working directory, the cleaning loop with its two labels, last separator), Pl_Decompose_File_Name. Spec: components, walk over a stack of names, textual substitution. Induction on the length of the source; overflow is a result | os_path.c | canonical form, denotation, idempotence, bounds, decomposition unique |
| C40 | `Acyclic` | Pl_Acyclic_Term_1 with its marks in the heap | exactness (fails iff a cycle is reachable) and restoration |
| C41 | `Arith` (Eval) | Pl_Math_Load_Value / expression evaluation | refinement to a recursive evaluator |
| C42 | `RbMap` | map_rbtree.h red-black trees | refinement to a sorted finite map, balance invariant |
| C43 | `Index` | Pl2Wam/indexing.pl, code executed with try/retry/trust and the switches of `Switch` | correctness of the generated code for all clause lists |
| C44 C45 (C33) | `Rw` | write_supp.c Show_* and the state of the automatic spaces, parser_supp.c, tokens of `Quote` | round trip by induction on terms: the text is cut into tokens (lexical half), the tokens are parsed in every context the writer uses (syntactic half) |
| C46 | `Verif/Mirror`: stream table with its free entries and last index, alias table, mirror and mirror_of lists as nodes with addresses and an explicit set of freed addresses, Pl_Stream_Putc with a recursion bound | invariant by induction over any sequence of predicates, effect of each predicate against a relational spec (`Denotes`, `Visits`), counters by induction on the text |
| C47 | `Format/Model.lean`: Format, Flush_Padding and the readers of arguments (format_c.c), the string stream with its reallocations; an argument is what its readers see. `Spec.lean`: a page with pieces and padding points, the digits of numbers, an inductive grammar of formats. Simulation by induction on the format; converse by inversion of the loop; facts about the page (columns, shares, kept text). | C47_format_partial, C47_only_documented, C47_literal, C47_boundary, C47_relative, C47_even, C47_radix, C47_decimal, C47_groups |
| C48 | `FdMath/Model.lean`: Normalize, the polynomials, the delay stack, Load_* (math_supp.c), the four relations (fd_math_c.c), Pl_Power; integers are unbounded except in Pl_Power and at the primitive constraints (clamped or cast to int there), heap cells and FD variables are numbers, `H--` on a cell in use is `ub`. A primitive constraint stands for the relation of its .fd text; propagation itself is C23-C27. `Spec.lean`: values of expressions by the manual, sizes. Invariant by induction over the term: every step keeps the value of the polynomial for the solutions of the constraints so far, and every assignment extends to the new variables. `inst` (which variables are integers by now) is any function that is sound for the constraints posted. |
| C49 | `Label/Model.lean`: the whole search of fd_labeling (fd_values.pl, fd_values_c.c) above the propagation model of C26: value selection, the array of variables with reordering, packing and its trail, choice points which restore what is trailed. `Arr.lean`: the array keeps the variables; `Ops.lean`, `Value.lean`: a value assigned / removed / an interval bisected splits the solutions; `Search.lean`: induction over the size of the domains, answers = solutions, order; `Order.lean`: order of the values; `Choice.lean`: criterion of the manual. |
| C50 | `Optim/Model.lean`: the loops of fd_minimize/2 and fd_maximize/2 (fd_optim.pl) with a labeling as goal, above C49. Proof: each turn either finds a better value (the rank of the bound decreases) or shows that there is none; the final call gives the solutions with the bound. |
| C51 | Model generate_head, gen_unif_arg, gen_subterm_arg, flat_stc_arg_lst and the reordering of code_gen.pl as functions from the arguments to a list of instructions, and the get_/unify_ instructions of wam_inst.c on the memory of the part Unify. Specification: `Den`, equality of an argument with a term for given values of the variables. Proof: a transition relation `Tr` between memory + code generator states (models go down, solutions go up), composed along the generated code by induction on the argument. |
| C52 | Model gen_load_arg, gen_load_arg_lst, reorder_body_arg_lst and generate_body (calls) of code_gen.pl, the put_ instructions, and the classification of the variables of internal.pl (dictionary of occurrences, void/temporary/permanent). A call is specified by `Called`: any effect on the registers and on the memory which keeps what is bound and the unused words of the older environments, with the set of the instances of its answer; it is an assumption on the callee, not a model of it. Proof: the relation `Tr` of C51 along the loading, then induction on the calls; the invariant `Safe` on the words which are said not to be in the current environment gives the last call; the classification is proved to separate the chunks, which gives the theorems on the clauses of the source. |
| C53 | Model equal/4, equal_lst/4, inline_unif_reg_term/5 (code_gen.pl:513-596) on top of the model of C51 and C52; a chunk is a list of unifications and a call. Specification: `Unified`, both sides are equal to a same term for the values of the variables of the clause. Proof: the relation `Tr` of C51 along the code of the unifications, whose condition is `Unified`. Partial: the three cases of the header of Props4.lean are not covered, one of them being a defect of the compiler. |
| C54 | Control: `norm` (normalize_cuts), `alts`/`linearize` (auxiliary predicates), a machine with the choice points by their addresses in the local stack, B, the cut level of each predicate, Pl_Cut and Pl_Soft_Cut as written (links changed in memory). Spec: `sem`, the answers of a body by recursion on it. Proof: an answer-by-answer relation (`Sat`) between the code and the list of choice points, for every chain below; induction on the body. Not modelled: Module:Goal, indexing, the goals themselves (given by their answers). |
| C55 | `Verif/ByteCode`: the emission of byte code (`Pl_BC_Emit_Inst_1`, buffer, bit fields, `BIG` and `NATIVE` forms) and the reading of the operands by the emulator (`BC_Emulate_Byte_Code`), for 32 and 64 bits; the effect of an instruction on the machine is a parameter. Specification: the execution of the list of instructions. Round trip for each instruction, then induction on the clause. Not modelled: debugger calls, binary search of the instruction names, `Pl_BC_Emulate_Pred` (selection of the clauses, see C19/C20). |
| C56 | the translation of grammar rules (expand_c.c): goals, equations of the translation, `opt_term_unif`, the test `in == new_out` | joint induction on the body: soundness, completeness, and solvability of the equations (for any values of the two streams unless the part is an identity); the execution of concrete rules and of their clauses is compared with the semantics of C54 |
| C57 | Model Simplify and the functions Set_... of fd_bool_c.c as functions which record the primitive constraints posted; abstract loading of the arithmetic expressions. Specification: the truth of the formula. Theorems: values which satisfy the posted constraints make the formula true, and every solution extends to the new variables; no unset word is used; type errors; the number of fd_cardinality. Separately the propagation rules of fd_bool_fd.fd on domains with minimum and maximum: soundness for all domains, exactness on instantiated variables, also after a wait_switch has been replaced by one of its cases. Theorems in Verif/FdBool/Props.lean. |
| C58 | Model functor/3, arg/3, =../2, setarg/3-4, term_variables/2-3 and subsumes_term/2 (term_inl_c.c) on the memory of the WAM (the unification of C13-C14, the list instructions of C34, the traversal of the variables of term_supp.c). Specification: relations on finite terms (functor and arguments, list of the arguments, list of the first occurrences of the variables, substitution which leaves the specific term unchanged). Theorems: a success is the most general answer, a failure means no answer, the condition of each error; subsumes_term/2 decides subsumption and restores the state; setarg changes one word. |
| C59 | NumVars | The table of the excluded numbers, the traversal which binds the variables while it reads the term, and the options, over the memory of the parts Unify and ListBip. Spec: the sorted list of the first numbers which are not excluded (`Numbering`), sub-terms (`Sub`). Invariant of the traversal: the cells of the call are unchanged but the variables bound to new structures; so the traversal is the fold of the binding over the variables of the term of the call. |
| C60 | FdSymb | The functions of fd_symbolic_c.c over the ranges of FdRange and the tells of Fd: the array of the list, the loops on the index and on the value, the counting loops; an access outside of an array or a vector is the outcome `undef`. Spec: `At` (element of a list), `ElementSol`, `count`, solutions kept (`Keeps`) and domains with only values of solutions (`Exact`). fd_all_different over an abstract posting of a disequality; the columns of fd_relation as derivations. |
| C61 | Linedit | The array of the line with positions, the clipboard, the circular table of the history (`linedit.c`), an access outside of them is a distinct outcome; the specification is a text before and after the cursor and a list of lines. Refinement key by key, then by induction on the keys. Not modelled: the display, the interrupt key, the matching of brackets, the choice of the completion. |
| C62 | Compl | The dictionary is the red-black map of C42 with `strcmp`; `Pl_LE_Compl_Match_First`, `_Navig`, `_Last`, `Display_All_Completions`, find_linedit_completion/2 and its retry, the search of the word before the cursor. Refinement to the sorted list of the words: the words with a prefix are contiguous, the common prefix of the first and last is common to all; the table by arithmetic on the positions. Not modelled: the question above 20 lines, the words added between two solutions. |
| C63 | Between | `Pl_Between_3`, `Pl_Between_Alt_0`, `Pl_Rd_Integer_Check` on the memory and the choice points of ListBip (C34). Refinement: the run of the call and its retries follows the solutions X = L + k of the specification on the terms; induction on the number of retries for the exact number of solutions. Not modelled: FD variables in the memory, the untagged integers of the choice point (kept as integer words). |
| C64 | Singl | `Pl_Name_Singleton_Vars_1`, `Collect_Singleton` (array of marked addresses and counter) with the traversal of TermInl (C58). Invariant of the array after each occurrence: the variables in the order of their first occurrence, marked iff they occur more than once, the counter is the number of entries not marked; then each binding is a step of the memory. Not modelled: cyclic terms, FD variables, the bit 0 of an address (a boolean). |
| C65 | TypeTest | The macros of type_inl_c.c on the tag of the dereferenced word, `Pl_Blt_Ground`, `Pl_Blt_List`, `Pl_Blt_Partial_List`, `Pl_Blt_List_Or_Partial_List`. Induction on the finite term represented by the word: some fuel is enough and the result is the specification (kind of the term, no variables, end of the list). Not modelled: FD variables inside a term, cyclic terms. |
| C66 | CallN | registers as a function, memmove and the copy loops of Pl_Call_Closure, the goal built on the global stack; the specification concatenates lists of terms |
| C67 | CurPred | first call and retries of current_predicate/1 on the scan of HashTbl; the answers are the filter of the enumeration; keys Functor_Arity |
| C68 | Random | the doubles as integers rounded to 53 bits, rand() as a parameter; error bound of the rounding; witnesses beyond 2^53 |
| C69 | THash | `Term_Hash_Rec` over the memory of Unify with the incremental hash as a parameter (instantiated by MurmurHash3 as in hash_fct.c), `Term_Hash`, `Pl_Term_Hash_4`, `Pl_Term_Hash_2`; specification: variables and equality down to a depth (inductive), the sequence of items in prefix order |
| C70 | Flags | the functions get, chk and set of the types of flags, `Prolog_Flag_Lookup`, `Pl_Set_Prolog_Flag_2`, `Pl_Current_Prolog_Flag_2` and its alternative with a table which may change between the answers; specification: domain and value of a flag (inductive), outcome of a change (inductive) |
| C71 | Environ | `Pl_Environ_2`, `Pl_Environ_Alt_0` and `getenv` on lists of bytes; specification: the list of the names and values |
| C72 | CharConv | `Pl_Char_Conversion_2`, `Find_Next_Char_Conversion`, `Pl_Current_Char_Conversion_2` and its alternative with a table which may change, the macro `Char_Conversion`; specification: the filter of the 256 characters |
| C73 | CurAtom | `Pl_Current_Atom_2`, `Pl_Current_Atom_Alt_0` and `Pl_Find_Next_Atom` with a table which grows between the answers; specification: visible atoms of the table at each time |
| C74 | CharCode | `Pl_Char_Code_2`, `Pl_Lower_Upper_2` and the checks of c_supp.c they call, on dereferenced arguments; toupper and tolower of the C locale are modelled and trusted; specification: an inductive relation of the outcomes, letters by rank |

## Trusted base

* Lean 4.33.0 kernel. Theorems use at most `propext`, `Classical.choice`, `Quot.sound`
  (checked with `#print axioms`). No `sorry`, no added axioms, no `native_decide`/`bv_decide`.
* The hand translation C/Prolog → Lean. Each definition cites what it models and says what it simplifies.
* Not modelled: malloc failure and stack overflow handling, signals, floating-point arithmetic (except
  where stated abstractly), the C compiler, 32-bit configurations, threads (none exist).

* `deref`, `run` and similar loops which may not terminate are defined with `partial_fixpoint` on `Option`: `none` is
  divergence or undefined behaviour, and the theorems prove the result is `some`.
* `char` is unsigned in BipsPl (compiled with `-funsigned-char`: BipsPl/Makefile.in:93, configure.in:613).
* qsort of the C library is any function which returns an ordered permutation.

## Where the code disagrees with the expected property

Each is a theorem about the model (a negation with a witness); the positive theorem then has the suffix `_partial` or states the
precondition.

| property | disagreement | theorem |
|----------|--------------|---------|
| C08 | `<<` overflows silently for a negative first argument, `X << minint` is 0 | see `Arith/Props.lean` |
| C09 | `gcd(minint, minint)` wraps; the culprit of the domain error of lsb/msb/popcount is not tagged | see `Arith/Props.lean` |
| C03 | the length of an atom is a 16-bit field: an atom of 65536 characters has length 0 (atom_concat/3 then allocates too little) | `C03_length_truncated` |
| C03 | new_atom/2 with a prefix longer than 1022 characters writes past a buffer | `C03_new_atom_long_prefix_overflows` |
| C04 | current_op/3 dereferences NULL when the operator of its remaining alternative was deleted by op(0, ...) | `C04_deleted_alternative_crashes` |
| C20 | backtracking into retract/1 after abolish/1 of the predicate overwrites the ALL mark; the next reclamation follows the mark as a clause (crash) | `C20_retract_after_abolish_crashes` |
| C20 | Erase_All_Clauses_Of_File reads `clause->seq_chain.next` of a clause which the reclamation may just have freed | `C20_file_removal_uses_freed_clause` |
| C20 | a clause executing during a reclamation leaves its predicate marked for ever when it had no erased clause: later erased clauses of it are never freed | `C20_leak` |
| C23 | Pl_Range_Set_Value: an interval above fd_vector_max which must become sparse gets an uninitialised vector; an empty flagged range loses its flag | `C23_set_value_junk_witness`, `C23_set_value_flag_witness`, `C23_set_value_partial` |
| C23 | Pl_Range_Reset_Value: removing fd_vector_max (or 0) strictly inside an interval which exceeds the vector leaves it as a bound, the membership test still succeeds | `C23_reset_value_witness`, `C23_reset_value_partial` |
| C23 | Pl_Range_Compl of an interval above fd_max_integer + 1; Pl_Range_Test_Null_Inter with an empty interval | `C23_compl_witness`, `C23_test_null_inter_empty_witness` |
| C24 | Pl_Range_Div_Value: bounds not multiples of the value give a range with bounds which are not elements; by 0 or a negative value the behaviour is undefined | `C24_div_value_bounds_witness`, `C24_div_value_undefined_witness`, `C24_div_value_partial` |
| C24 | Pl_Range_Mul_Value by a negative value is empty; products overflow an `int`; Pl_Range_Mul_Range does not flag lost products; {0}/{0} is {0} | `C24_mul_value_neg_witness`, `C24_mul_overflow_witness`, `C24_mul_range_flag_witness`, `C24_div_range_zero_witness` |
| C21 | an exception which leaves an inner findall/bagof/setof and is caught by the goal of an outer one: the solutions of the aborted one stay on the stack and are collected by the outer one | `C21_findall_exception`, `C21_findall_exception_witness`, `C21_findall_partial` |
| C22 | setof/3 without free variables unifies its result before sorting it in place: `setof(X,(X=b;X=a),[a,b])` fails, `setof(X,(X=b;X=a),[b,a])` succeeds and modifies the list of the caller | `C22_setof_instantiated_fails`, `C22_setof_instantiated_modified`, `C22_no_free_variables_partial` |
| C22 | Link_Key_Var (all_solut_c.c:476) copies the word of a FD variable out of its frame when FD variables are in a key (not modelled) | – |
| C25 | `Update_Range_From_Range` changes the flag `extra_cstr` alone with `FD_Bind_OV`, which writes a 64-bit word at a 32-bit field: on a little-endian machine `min` becomes 0 (fd_domain(X,1,1000), X #\\= 5, X #=< 127, X = 0 succeeds) | `C25_flag_write_witness` |
| C25 | when two values are left in a vector, `X #\\= V` instantiates X although values above fd_vector_max were dropped and recorded: no warning | `C25_silent_instantiation_witness` |
| C25 | the unification of an FD variable with an integer casts it to `int`: X in 0..10, X = 4294967299 gives X = 3 | `C25_unify_int_witness` |
| C26 | constraint terms are computed with 32-bit `int`: X, Y in 0..65536 and X*Y #= Z instantiates Z to 0; 3*X+16*Y #= Z loses X = 0..5 when Y is unbounded | `C26_overflow_witness` |
| C26 | the integer parameters are clamped to ±268435455 (`Pl_Fd_Prolog_To_Value`): X #>= 300000000 succeeds with X = 268435455, X #\= 10^9 removes 268435455; X #= 2^32+3 is X = 3 | `C26_constant_witness` |
| C27 | Pl_Fd_Create_C_Frame increments Nb_Cstr without trailing: after a failure the count used by the labeling heuristics stays incremented | `C27_nb_cstr_witness`, `C27_nb_cstr_dependency_witness` |
| C27 | copy_term/2 puts the frame of a copied FD variable in the global stack, which is above the constraint stack: FD_Word_Needs_Trailing is false, its instantiation survives backtracking | `C27_copy_witness` |
| C30 | G_Inc_Dec and the bit operations write the value without cancelling the pending undo record: an increment after g_assignb is lost on backtracking | `C30_inc_undone` |
| C30 | G_Assign_Array with g_array_extend does not cancel the pending undo record of the array: g_assign(a, g_array_extend(..)) after g_assignb is undone | `C30_extend_undone` |
| C30 | G_Alloc_Array copies the old_size elements of the old array to the new block for a backtrackable assignment, also if the new array is smaller: write after the end of the block | `C30_assignb_overflow` |
| C30 | g_array_extend with a smaller size reads the last element after the end of the reallocated block | `C30_extend_overflow` |
| C30 | a backtrackable g_array over an automatic array is automatic (the last element is copied) | `C30_assignb_auto` |
| C30 | (read, not modelled) G_Assign_Arg uses the tagged word of a linked term as an address; Get_Int_Addr_From_Gvar does not dereference a linked bound variable; an indirect index whose evaluation extends the same array leaves an old address in Get_Target_From_Gvar; saved values of cancelled undo records are not freed | |
| C33 | the reader accepts a NUL byte after a backslash and among the digits of a numeric escape (strchr finds the terminator); numeric escapes overflow a C int | `C33_escape_nul`, `C33_escape_nul_digit`, `C33_escape_overflow` |
| C33 | names longer than 1 MB overflow the token buffer (not modelled) | recorded only |
| C45 | writeq('$VAR'(1)) writes `B`, read back as a variable (documented, but not a round trip) | `C45_dollar_var_witness` |
| C34 | Pl_Member_3 dereferences the tail of the list after the unification of the element and before its bindings are undone (list_c.c:213-227): `member(a,[T\|T])` loses the answer T=[a\|_], and `member(f(P,P),[f(T,[f(1,1)])\|T])` gives the wrong second answer P=1 | `C34_member_incomplete`, `C34_member_wrong_answer` |
| C34 | Pl_Memberchk_2 pushes X on the global stack without globalisation (list_c.c:285, wam_inst.c:774): with a partial list and X an unbound permanent variable, the global stack refers to the local stack | `C34_memberchk_local` |
| C35 | a register set without being used later, but copied before, may get the machine register of a live alias (level 2): the aliases looked at are those at the entry of the instruction which ends them. Compiled clauses only do so for the arguments of C functions, which the generated code passes by value | C35_useless_write_overwrites |
| C35 | a useless write of an argument register records no incompatibility | C35_argument_write_overwrites |
| C35 | `call_c` arguments `&(x(R))` are invisible to the allocator, although the C function reads and writes the register | C35_address_overwrites |
| C35 | a register copied into itself appears twice among its aliases and a later write removes one occurrence | C35_self_copy_overwrites |
| C35 | the remark of reg_alloc.pl:93-95 (wanted values are always possible) does not hold for arbitrary code | C35_wish_check_needed |
| C36 | reading the end of file increments the line position (Update_Counters) | C36_eof_shifts_column |
| C36 | the end of file looked ahead is counted as a code put back: the offset of the position is one too small, setting that position reads the last code again | C36_lookahead_eof_offset |
| C36 | the tokeniser puts back the end of file, the character count gets one too small | C36_unget_eof_count |
| C36 | 8 codes may be put back, but a code looked ahead uses one place: it is lost without error | C36_lookahead_unget_loses |
| C36 | a failed set_stream_line_column/3 overwrites the remembered line lengths | C36_failed_line_column |
| C36 | seek/4 relative to the current position ignores codes looked ahead; relative to the end sets the character count to the given offset | C36_seek_current_skips, C36_seek_eof_count |
| C36 | get_key/2 on a file skips the rest of the line without counting it | C36_get_key_count |
| C37 | `throw('$no_ball$')` is not caught by `catch(_, _, _)`, the goal fails silently; `throw('$catch_sync'(N))` with a user integer bypasses catchers and resets B to N | C37_no_ball, C37_sync_ball |
| C37 | An exception handled by C code through Pl_Query_Call leaves the ball in system variable 8; when the goal of the enclosing catch/3 fails later, the recovery is called although no exception is under way (foreign_supp.c 339-457 never resets it) | C37_query_stale_ball |
| C37 | With no catch/3 active, Pl_Throw_2 prints `cannot_catch_throw` and returns without a cut, so '$unwind' fails into the last choice point and the execution goes on (throw_c.c 92-102) | C37_uncaught_continues |
| C39 | With the last separator kept (copy_file/2, open/3...) a path to the root such as `//` or `/a/../` gives `//` | C39_root_slash |
| C39 | Resolving is not idempotent when the value of a variable or the working directory has a `$NAME` of a defined variable | C39_not_idempotent, C39_not_idempotent_cwd |
| C39 | A path of MAXPATHLEN-1 characters, which fits with its NUL, writes a second NUL after the buffer (os_path.c:525); longer paths and values of variables are copied unchecked | C39_overflow_exact, C39_overflow_env |
| C39 | Pl_Decompose_File_Name with del_trail_slashes TRUE gives `` for `/foo`: `len` is unsigned and wraps, the byte before the buffer is read (no caller passes TRUE at this commit) | C39_dirname_root |
| C46 | cyclic mirrors are accepted and the next character overflows the C stack | `C46_put_cycle`, `C46_mirror_cycle` |
| C46 | `'$stream'(N)` designates another stream after the first was closed | `C46_stale_handle` |
| C46 | open/4 with reposition(true) on a file that cannot be repositioned leaves a closed FILE in the table | `C46_open_reposition` |
| C46 | close/1 whose fclose fails leaves a closed FILE in the table, a second close is undefined | `C46_close_fails` |
| C46 | set_stream_alias/2 can make current_input an output stream | `C46_input_is_output` |
| C46 | removing the next mirror between two solutions of stream_property(S, mirror(M)) reads a freed node | `C46_current_mirror_removed` |
| C46 | sr_open(user,...) shares the mirror nodes of the current input, closing it frees them | `C46_sr_open_user` |
| C47 | `format("~tab~nc~10\|d~t~20\|e", [])`: after a new line following `~t` the spaces of the next boundary go to the string stream (format_c.c 543-549, pstm is still the string stream): column 10 is not reached, the spaces appear in the next column | C47_newline_violated |
| C47 | `format("abc~t~Nx", [])` writes `abcx`: `~N` looks at the column of the string stream, which is 0 | C47_fresh_violated |
| C47 | Two `~t` and at least 1024 characters before the boundary: the pointers of the padding table point into the block before Realloc (stream_supp.c 2005-2012): undefined behaviour | C47_realloc_violated |
| C47 | `~%` at the end of the format: strchr finds the NUL of the list of conversions; with a numeric argument the format is read past its end | C47_percent_end_violated |
| C47 | `~s` (or `~Na`, `~%s`) with at least 65535 characters overruns the buffer of Pl_Stream_Printf | C47_buffer_violated |
| C47 | `~4294967296d`: the number of decimals is truncated to 32 bits, `12` is written | C47_places_violated |
| C47 | `~+1`: the sign and the digit are taken for N by strtol, the format is refused; `~ 2d`, `~-3c` are accepted | C47_plus_digit_violated, C47_sign_violated |
| C47 | A type error of an argument after `~t` leaves the string stream open (no CLEAN in Arg_*) | C47_leak_violated |
| C48 | `300000000*X #= Y` has the solution X=1, Y=268435455; `X #>= 300000000` gives X=268435455; `X #\\= 300000000` excludes 268435455: parameters above the largest FD integer are clamped (fd_inst.c 500-512) | C48_clamped_coefficient_violated, C48_clamped_bound_violated, C48_clamped_disequality_violated |
| C48 | `X #= 6**13` gives 175792128 and `X #= 10**10` gives 268435455: Pl_Power multiplies unsigned ints and saturates (oper_supp.c 74-101) | C48_power_overflow_violated |
| C48 | `X #= max(Y-5,0)` has no solution with Y=3: operands of min, max, dist, ... are loaded into FD variables, which are not negative | C48_negative_operand_violated |
| C48 | `X+Y #\\= 3` has no solution with X=Y=200000000: the sum is an FD variable | C48_large_sum_violated |
| C48 | `Q #= U*V + (0*(X*Y))//3`, `Q #= (1**(X*Y))//3`: `H--` (math_supp.c 1056) is meant to release the cell of the remainder, but the operands have pushed cells since: a cell in use is released | C48_released_cell_violated |
| C48 | `X #= Y` on plain variables unifies them and leaves them plain, no domain is given (math_supp.c 1340-1364) | recorded only |
| C49 | with more than 50 variables of which half are instantiated, the variable picked by first_fail (or another method) may be any later one: `*res_elem` is read after the array has been packed (fd_values_c.c 640-658) | C49_packing_witness |
| C49 | value method middle starts before the middle for an odd number of values: 0 for 0..2 (`Pl_Range_Ith_Elem(nb / 2)` counts from 1, fd_values_c.c 308-310) | C49_middle_witness |
| C49 | middle and random lose values of domains beyond the vector maximum (removing an inner value makes the domain sparse and cuts it): 120..139 with vectors 0..127 gives 9 answers instead of 20 | C49_wide_witness |
| C49 | with reorder(true), the default, the best variable is exchanged in the array, so that for equal criteria it is no longer the leftmost one of the list at the next pick, as the manual says for first_fail | recorded only |
| C50 | fd_maximize never terminates when a solution gives the variable the value 268435455: `fd_domain(X, 268435456, 268435455)` is clamped to 268435455..268435455, the same solution is found again (fd_optim.pl 73-75, fd_inst.c 500-512) | C50_maximize_diverges_violated |
| C53 | inline_unif_reg_term (code_gen.pl:583-596) sets Info = in_heap for a new temporary after put_value of the other side, even if this one is a variable which may be in the local stack. In `p(B,T) :- A = B, T = f(A).` the argument of f(A) is then written with unify_value instead of unify_local_value: called as `main :- p(X,T), q(X), r(T).` a word of the global stack refers to the local stack, and is dangling when the environment of main is removed. The same with `p :- foo(Y), A = Y, q(f(A)), r(Y).`; `Old = New` is compiled correctly | C53_new_variable_dangling; C53_sound_partial excludes the case |
| C54 | `p :- ((X=1 ; X=2, !, fail) *-> fail ; X=9).` gives X=9: the cut in the condition sets B to the choice point of the else, which the soft cut has unlinked before | C54_soft_cut_then_cut |
| C54 | `p :- ((X=1 ; (X=2 -> fail ; X=3)) *-> fail ; X=9).` gives X=9: the if-then-else is a clause of the auxiliary predicate of the `;`, its cut goes back to the level at the entry of this predicate, the unlinked choice point of the else | C54_soft_cut_then_if |
| C55 | On 64 bits machines `Functor_Arity(caller)` has its arity above bit 54 and is truncated to 32 bits in the byte code (bc_supp.c:723): the context of the existence error of an unknown predicate called from a consulted clause of `p/N` is always `p/0` | `C55_context`, `C55_clause_partial` |
| C55 | `Pl_BC_Emulate_Pred` writes `A(arity + 1)` (bc_supp.c:1088): with a predicate of 255 arguments (`MAX_ARITY`) this is the 257th register, the WAM register stored after the `X` registers | `C55_max_arity` |
| C55 | Permanent variables from number 65536 (and argument registers from 256) are stored modulo the size of the field without any check | `C55_field_overflow` |
| C56 | `a --> !, [].` is translated to `a(S,S) :- !.`: the streams are unified before the cut, `phrase(a,"x",[])` goes on with the next rule (not steadfast); the same in `(!, [] ; B)` | C56_cut_not_steadfast, C56_alt_cut_not_steadfast |
| C56 | `(b -> [] ; c)`: the condition is called with the output stream of the whole | C56_condition_not_steadfast |
| C56 | `([] -> [] ; E)`: the equation is put in front of the `->`, the if-then-else becomes a disjunction and `E` gives answers too | C56_if_then_else_lost |
| C56 | `([], (b -> c) ; d)`: `[]` leaves no goal, the disjunction becomes an if-then-else and `d` is not tried when `c` fails | C56_disjunction_lost |
| C56 | `h, [a] --> !, [b].`: the pushback is unified in the head, before the cut | C56_pushback_not_steadfast |
| C57 | An integer in a boolean constraint is truncated to 32 bits before it is compared with 0 and 1: `X #<=> 4294967297` is accepted and binds X to 1 (fd_bool_c.c:414-416). | C57_integer_truncated |
| C57 | fd_reified_in(X, L, U, B) with X instantiated to a negative integer, or to one greater than the maximum of the domains, gives B = 0 even if L =< X =< U, since L and U are clamped to 0..max (fd_bool_c.c:1590-1616). | C57_reified_in_negative |
| C58 | arg/3 compares the argument number after a conversion to `unsigned long`, which has 32 bits on 64 bits Windows, then indexes with the whole number: `arg(4294967297, f(a), X)` reads outside the term (term_inl_c.c:209-210). | C58_arg_win64 |
| C58 | `term_variables(X, L)` where X is an unbound variable of an environment stores a reference to the local stack in the list (the variable is not globalized, term_inl_c.c:583-588, 617-632). | C58_term_variables_local |
| C58 | setarg/3-4 stores the dereferenced word of the new value: an unbound variable of an environment becomes a reference from the global stack to the local stack, and a finite domain variable is stored with its own tag instead of a reference (term_inl_c.c:503-515). | C58_setarg_local |
| C59 | bind_variables/2 does not exclude the numbers from 1048576 (pretty_c.c:642: the table has MAX_VAR_IN_TERM entries and larger numbers are ignored): with from(1048576) and exclude(['$VAR'(1048576)]) the number 1048576 is given again | `C59_exclude_large`, `C59_exclude_partial` |
| C59 | Var_Name_To_Var_Number (pretty_c.c:621-625) stores the result of strtol in an int and multiplies it by 26: for a name such as 'A99999999' the signed multiplication overflows | `C59_name_overflow` |
| C59 | bind_variables(T, [next(N)]) raises an instantiation_error when N is a variable (pretty.pl:148-150 checks that it is a bound integer), although pl-bips.tex:738 says that N is unified with the next number; so the option is unusable, and from(a) raises domain_error(var_binding_option, from(a)), not the documented type_error(integer, a) | `C59_next_option` |
| C60 | fd_element/3 writes a bit outside of the vector for a value of the list greater than the maximum of the vectors (127 by default) or negative, and for a list longer than this maximum (fd_symbolic_c.c:186, 194, 227: `Vector_Set_Value` without a test; fd_inst.c:579-633 accepts any integer): fd_element(I, [1,1000], V) | `C60_element_undef`, `C60_value`, `C60_position` |
| C60 | fd_element/3 reduces the values of the list to 32 bits (fd_symbolic_c.c:185): fd_element(I, [4294967301], V) gives V = 5 | `C60_element_large` |
| C60 | Pl_Fd_Element_I_To_V and Pl_Fd_Element_V_To_I do not set `extra_cstr` of the range they fill, a local variable which is not initialised (fd_to_c.h:665): the flag of V (the `@` shown after its domain) is any | `C60_element_flag` |
| C60 | fd_atmost/3 does not detect that a repeated variable is counted twice: after fd_atmost(1, [X,X], 5) the value 5 is still in the domain of X | `C60_atmost_twice` |
| C60 | fd_relation([], Vars) does not end: '$lines_to_columns'([], L) calls itself with the same argument (fd_symbolic.pl:119-121, 126) instead of failing | `C60_relation_empty` |
| C61 | The clipboard of the line editor has 4096 bytes (`linedit.c:148`) but the line of the top level has 10240 (`stream_supp.c:84`): Ctrl-U, Ctrl-K, Ctrl-W and ESC-W write outside of it | `C61_clipboard_overflow`, `C61_clipboard_reached` |
| C61 | The mark (`linedit.c:449-488`) is not reset when the text after it is erased: Ctrl-W then subtracts more than the length, `end` is before the start of the buffer and the next key writes there | `C61_mark_beyond` |
| C61 | A backward search which fails leaves `h_no` on the oldest line (`linedit.c:652-658`): the next move in the history overwrites this line by the text being typed | `C61_search_loses_a_line` |
| C61 | The test of a line equal to the last one is skipped when `hist_end` is 0 (`linedit.c:1054`), which also happens each time the table wraps | `C61_repeat_kept` |
| C61 | ESC-B moves forward when only separators precede the cursor (`linedit.c:493-499`) | `C61_previous_word_forward` |
| C61 | A tabulation among the characters waiting at the start of the line is expanded without a test of the size (`linedit.c:279-281`) | `C61_buffered_tab` |
| C62 | find_linedit_completion/2 keeps its enumeration in one static variable (le_interf_c.c:62): a retry after another call gives the word found by the other call, or reads NULL if that call found none (`find_linedit_completion(ap, X), \+ find_linedit_completion(@, _), fail`) | `C62_find_nested` |
| C62 | The comment of completion.c:257-258 allows a prefix longer than its length or not ended by zero; `map_next` compares the whole string, words are missed (or the text is read beyond its end) | `C62_longer_prefix` |
| C62 | A tabulation with a separator before and after the cursor: the word found starts after the cursor, the length passed is negative and the text is not ended (linedit.c:557-561) | `C62_tab_after_separator` |
| C63 | between/3 with an FD variable as third argument raises a type error (integer), although it may take a value of the interval | `C63_fd_variable` |
| C66 | the goal called is the closure with the extra arguments; errors; no access out of the bank of registers. Observation: the goal built for the interpreter copies the words of the registers as they are, so it can refer to a variable of the local stack | `CallN.C66_call`, `CallN.C66_total` |
| C67 | current_predicate/1 keeps a scan of the table of predicates in its choice point: creating a predicate between two answers when the table is full frees the table the scan points to | `CurPred.C67_creation_is_undefined`; the enumeration of an unchanged table is right: `CurPred.C67_current_predicate` |
| C68 | random/3 rounds its integer bounds to doubles: beyond 2^53 the result can be below the lower bound or equal to the upper one, or the call fails although L < U. Also (not modelled): with float bounds which are whole numbers the result is an integer although the manual says a float (random_c.c:125-132) | `Random.C68_large_bounds_violated`; bounds up to 2^53: `Random.C68_random_partial` |
| C69 | value given exactly when there is no variable down to the depth, in the range; hash of the prefix sequence; same for terms equal down to the depth in any memories; term_hash/2 and groundness; collision of [[a]] and [a,[]] | C69_value, C69_sequence, C69_equal_terms, C69_term_hash_2, C69_nested_lists_collide, C69_fd_variable, C69_murmur_by_value, C69_floats_collide |
| C70 | errors in order, exactly one flag changed, value of a known flag, enumeration of every flag once | C70_set_prolog_flag, C70_current_known, C70_current_all |
| C71 | enumeration of the environment, known names, undefined behaviour of an entry without '=' | C71_environ_all, C71_environ_known, C71_entry_without_equal_is_undefined |
| C72 | enumeration of the conversions, effect of a conversion on reading, stale answer | C72_current_all, C72_char_conversion, C72_stale_answer |
| C73 | no repetition, atoms given are visible, atoms of the call are all given; known atoms | C73_current_atom, C73_known_atom |
| C74 | outcome of char_code/2, inverse modes; lower_upper/2 on characters, its errors, and the answer for a lower case letter which fails when called again | C74_char_code, C74_round_trip, C74_lower_upper, C74_lower_upper_answer, C74_lower_upper_errors |
| C28 C43 | compiled clauses with integer keys outside 32 bits are not found (key read as C int) | `C28_big_integer_fails`, `C43_big_integer_not_tried` |
| C28 | the difference in `Switch_Cmp_Int` overflows: far keys are not found | `C28_far_integers_fail` |
| C29 | the demangler rejects the coding digit 5 | see `Mangle/Props.lean` |
| C31 | `sub_atom(abc,4,L,A,'')` succeeds with A = -1 and similar cases; out of bounds read | see `SubAtom/Props.lean` |
| C14 | `=/2` on cyclic terms may not terminate | `C14_cyclic_diverges` |
| C16 | the error "too many variables" of copy_term leaves the source variables bound | see `CopyTerm/Props.lean` |
| C02 | an enumeration continued after the table was changed may read a freed element | see `HashTbl/Props.lean` |
