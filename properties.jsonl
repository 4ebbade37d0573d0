{"id": "C01", "title": "Engine tables behave as finite maps", "statement": "The chained hash table behind predicates, operators, flags, dynamic-clause indexes: after any sequence of inserts (with or without replace), deletes and clears, a lookup of a key returns exactly the record last stored for it, an absent key is reported absent, and the element counter equals the number of distinct keys present.", "quantifier": "all table sizes >= 1, all key values, all finite histories of operations", "why_tests_cant": "collision patterns depend on key mod size; a test only visits a few chains", "anchors": ["src/EnginePl/hash_tbl.c: Pl_HTBL_Insert, Pl_HTBL_Find, Pl_HTBL_Delete, Pl_HTBL_Delete_All, Hash_Locate"]}
{"id": "C02", "title": "Table growth and enumeration lose and duplicate nothing", "statement": "Growing (or shrinking) a table to any new positive size keeps every record and adds none, and the first/next enumeration (used by current_op, current_predicate, ...) returns every stored record exactly once and then ends.", "quantifier": "all tables reachable by any history, all new sizes >= 1", "why_tests_cant": "the resize happens at size-dependent moments and moves every chain", "anchors": ["src/EnginePl/hash_tbl.c: Pl_HTBL_Realloc_Table, Pl_HTBL_First, Pl_HTBL_Next", "src/EnginePl/misc.c: Pl_Extend_HTBL_If_Needed"]}
{"id": "C03", "title": "Atoms are interned: same text iff same atom", "statement": "Creating an atom from a text twice, with any other atom creations in between, yields the same atom; different texts yield different atoms; an existing atom never changes its text; looking up a text succeeds iff it was created; the table-full error is raised only when every slot is used by another text.", "quantifier": "all histories of atom creations, all texts, all hash functions and table sizes", "why_tests_cant": "open addressing with wrap-around: correctness depends on the whole history of collisions", "anchors": ["src/EnginePl/atom.c: Pl_Create_Atom, Add_Atom, Locate_Atom, Pl_Find_Atom, Hash_String"]}
{"id": "C04", "title": "Operator table answers what op/3 last said", "statement": "After any sequence of op/3 style definitions and removals, looking an operator up by name and kind (prefix, infix, postfix) returns the last definition for this pair, or nothing if it was removed or never defined; definitions of one kind never disturb the other kinds or names; the quick per-atom 'is an operator' test agrees with the table.", "quantifier": "all histories of definitions and deletions over all atoms and kinds", "why_tests_cant": "requires agreement of two data structures (mask and hash table) over all histories", "anchors": ["src/EnginePl/oper.c: Pl_Create_Oper, Pl_Lookup_Oper, Pl_Lookup_Oper_Any_Type, Pl_Delete_Oper", "src/EnginePl/oper.h: Make_Oper_Key, Check_Oper"]}
{"id": "C05", "title": "Tagged words carry values faithfully", "statement": "Encoding an integer in the 61-bit range, an atom, a reference or a structure address in a machine word and decoding it gives the value back; words of different kinds are never equal; functor/arity words are injective.", "quantifier": "all integers in [-2^60, 2^60-1], all atoms, all aligned addresses, all arities < 2^10", "why_tests_cant": "2^61 values; sign extension bugs only show near the boundary", "anchors": ["src/EnginePl/wam_archi.def", "src/EnginePl/wam_inst.h: Tag_INT, UnTag_INT, Tag_ATM, Functor_Arity"]}
{"id": "C06", "title": "Integer arithmetic is exact or reports overflow", "statement": "For integer operands, is/2 on +, -, *, unary -, abs, sign, min, max, ++/inc/dec, //, div, mod, rem, ^ either yields the mathematically exact result (a representable integer) or raises an evaluation/type error; it raises int_overflow only when the exact result is not representable. No silent wrap-around.", "quantifier": "all pairs of 61-bit integers", "why_tests_cant": "2^122 pairs; wrap-around only appears at corner values", "anchors": ["src/BipsPl/arith_inl_c.c: Pl_Fct_Fast_Add, Pl_Fct_Fast_Sub, Pl_Fct_Fast_Mul, Pl_Fct_Fast_IntDiv, Pl_Fct_Fast_Div2, Pl_Fct_Fast_Mod, Pl_Fct_Fast_Rem, Pl_Fct_Fast_IPow, Pl_Fct_Fast_Abs"]}
{"id": "C07", "title": "Integer division laws", "statement": "Whenever Y is a non-zero integer and no overflow is reported: X =:= (X // Y)*Y + (X rem Y) with // truncating toward zero and rem having the sign of X; X =:= (X div Y)*Y + (X mod Y) with div rounding toward minus infinity and mod having the sign of Y and magnitude < abs(Y).", "quantifier": "all pairs of 61-bit integers", "why_tests_cant": "sign combinations and boundary values cannot be exhausted", "anchors": ["src/BipsPl/arith_inl_c.c: Pl_Fct_Fast_IntDiv, Pl_Fct_Fast_Rem, Pl_Fct_Fast_Div2, Pl_Fct_Fast_Mod"]}
{"id": "C08", "title": "Bitwise operations and shifts are exact or report overflow", "statement": "/\\, \\/, xor, \\ act as two's complement bit operations on unbounded integers; X >> N is floor(X / 2^N); X << N is X*2^N or an evaluation error when this does not fit.", "quantifier": "all pairs of 61-bit integers", "why_tests_cant": "the operation is done on tagged 64-bit words; boundary and sign cases are unbounded", "anchors": ["src/BipsPl/arith_inl_c.c: Pl_Fct_Fast_And, Pl_Fct_Fast_Or, Pl_Fct_Fast_Xor, Pl_Fct_Fast_Not, Pl_Fct_Fast_Shl, Pl_Fct_Fast_Shr"]}
{"id": "C09", "title": "gcd, lsb, msb, popcount compute what they name", "statement": "gcd(X,Y) is the non-negative greatest common divisor or an evaluation error when it does not fit; for X>0 msb(X) and lsb(X) are the highest and lowest set bit positions and popcount the number of set bits.", "quantifier": "all 61-bit integers", "why_tests_cant": "value range not enumerable; errors sit at INT_LOWEST", "anchors": ["src/BipsPl/arith_inl_c.c: Pl_Fct_Fast_GCD, Pl_Fct_Fast_LSB, Pl_Fct_Fast_MSB, Pl_Fct_Fast_Popcount"]}
{"id": "C10", "title": "Standard order of terms is a total order", "statement": "compare/3 defines a total order on terms: reflexive, antisymmetric (answer = exactly for identical terms), transitive, and compare(O,X,Y) is the mirror of compare(O,Y,X). Variables < floats < integers < atoms < compound.", "quantifier": "all triples of terms of any depth, any heap layout", "why_tests_cant": "laws over triples of unbounded terms", "anchors": ["src/BipsPl/term_supp.c: Pl_Term_Compare"]}
{"id": "C11", "title": "msort/keysort return a sorted stable permutation", "statement": "msort/2 returns a permutation of its input sorted by the comparison; keysort/2 in addition keeps the input order among pairs with identical keys.", "quantifier": "all lists of any length, all total preorders as comparison", "why_tests_cant": "in-place merge sort with an auxiliary buffer: correctness over all lengths and orders", "anchors": ["src/BipsPl/sort_c.c: Merge_Sort, Pl_Sort_List_2, Keysort_Cmp"]}
{"id": "C12", "title": "sort/2 and setof sorting remove exactly the duplicates", "statement": "sort/2 returns the strictly increasing list with exactly the elements of the input (each class of identical terms once, keeping its first occurrence).", "quantifier": "all lists of any length", "why_tests_cant": "as above", "anchors": ["src/BipsPl/sort_c.c: Merge_Sort, Pl_Sort_List_2"]}
{"id": "C13", "title": "Unification is sound", "statement": "When =/2 succeeds on acyclic terms the two terms are identical after the bindings it made; it binds only variables; previously bound cells are unchanged.", "quantifier": "all heaps and all pairs of terms in them", "why_tests_cant": "terms share structure and alias through reference chains in unboundedly many ways", "anchors": ["src/EnginePl/unify.c: Pl_Unify", "src/EnginePl/wam_inst.h: DEREF, Bind_UV"]}
{"id": "C14", "title": "Unification is complete and most general; occurs-check unification decides unifiability", "statement": "unify_with_occurs_check/2 succeeds iff the two terms have a common instance, and the bindings made are most general: every unifier of the two terms factors through them. If plain =/2 fails the terms have no (finite) unifier.", "quantifier": "all heaps and all pairs of terms", "why_tests_cant": "quantifies over all substitutions", "anchors": ["src/EnginePl/unify.c: Pl_Unify, Pl_Unify_Occurs_Check", "src/EnginePl/wam_inst.c: Pl_Check_If_Var_Occurs"]}
{"id": "C15", "title": "Backtracking restores the machine state", "statement": "When execution backtracks to a choice point every variable bound, and every value destructively changed with trailing, since that choice point was created has its old value again, argument registers, environment and continuation are the saved ones, whatever bindings, nested choice points and cuts happened in between.", "quantifier": "all histories of push/bind/assign/cut/fail between creation of a choice point and backtracking to it", "why_tests_cant": "depends on conditional trailing being right for every address relation and history", "anchors": ["src/EnginePl/wam_inst.c: Pl_Create_Choice_Point, Pl_Untrail, Pl_Delete_Choice_Point, Pl_Cut", "src/EnginePl/wam_inst.h: Word_Needs_Trailing, Bind_UV, Bind_OV, Bind_MV"]}
{"id": "C16", "title": "copy_term builds a variant and leaves its source alone", "statement": "copy_term/2 produces a term equal to the source up to a bijective renaming of variables to fresh variables, sharing of variables is preserved, and afterwards the source term and all other cells are exactly as before.", "quantifier": "all heaps and terms with any sharing of variables", "why_tests_cant": "the source is temporarily modified (variables bound to their copies) and restored", "anchors": ["src/BipsPl/term_supp.c: Pl_Copy_Term, Copy_Term_Rec, Pl_Term_Size"]}
{"id": "C17", "title": "Stored terms survive relocation", "statement": "A term stored as a contiguous block (assert, findall, g_assign, recorded) and copied back to any address denotes the same term up to variable renaming: internal pointers are relocated, constants untouched.", "quantifier": "all contiguous terms, all source and destination addresses", "why_tests_cant": "addresses differ at each run", "anchors": ["src/BipsPl/term_supp.c: Pl_Copy_Contiguous_Term"]}
{"id": "C18", "title": "Logical database update view", "statement": "A call to a dynamic predicate, clause/2 or retract/1 enumerates exactly the clauses that were present at the moment of the call, in order, whatever asserta/assertz/retract are executed between the solutions.", "quantifier": "all interleavings of any number of concurrent scans with assert and retract", "why_tests_cant": "interleavings of updates and several open scans are unbounded", "anchors": ["src/BipsPl/dynam_supp.c: Pl_Add_Dynamic_Clause, Pl_Delete_Dynamic_Clause, Pl_Scan_Dynamic_Pred, Scan_Dynamic_Pred_Next"]}
{"id": "C19", "title": "First-argument indexing of dynamic clauses never loses or reorders a clause", "statement": "For any first argument of the call, the indexed scan of a dynamic predicate visits, in database order, every live clause whose first argument can unify with the call's one.", "quantifier": "all databases reachable by any history of asserta/assertz/retract, all call arguments", "why_tests_cant": "merging of two chains for each key over all histories", "anchors": ["src/BipsPl/dynam_supp.c: Add_To_2Chain, Remove_From_2Chain, Index_Mode, Scan_Dynamic_Pred_Next"]}
{"id": "C20", "title": "Clause reclamation is invisible and safe", "statement": "Physically freeing erased clauses never frees a clause that an open scan can still reach, never frees twice and does not change any later answer.", "quantifier": "all interleavings of scans, retract, retractall/abolish and reclamation", "why_tests_cant": "crash depends on the interleaving of an open retract scan with retractall and the moment of reclamation", "anchors": ["src/BipsPl/dynam_supp.c: Pl_Delete_Dynamic_Clause, Erase_All, Clean_Erased_Clauses"]}
{"id": "C21", "title": "findall/3 collects exactly the solutions, nested at will", "statement": "findall/3 returns the instances of the template in the order of the solutions, whatever findall/bagof/setof calls (terminating normally, failing, or raising exceptions caught inside) are executed by the goal.", "quantifier": "all nesting structures and solution sequences", "why_tests_cant": "global solution stack shared by all active findall's; nesting is unbounded", "anchors": ["src/BipsPl/all_solut_c.c: Pl_Stop_Mark_1, Pl_Store_Solution_1, Pl_Recover_Solutions_2", "src/BipsPl/all_solut.pl"]}
{"id": "C22", "title": "bagof/setof group by free variables", "statement": "bagof/3 with free variables enumerates one list per class of solutions with identical witness, in witness order, the lists partition the solutions; setof/3 gives the sorted duplicate-free version of each, independently of how its third argument is instantiated.", "quantifier": "all solution lists and all instantiations of the result argument", "why_tests_cant": "partition property over all lists", "anchors": ["src/BipsPl/all_solut_c.c: Pl_Group_Solutions_3, Group", "src/BipsPl/all_solut.pl: bagof, setof"]}
{"id": "C23", "title": "Finite domain set operations are exact", "statement": "The finite-domain representation (interval or bit vector) operations - membership, union, intersection, complement, insertion/removal of a value, min, max, next/previous element, i-th element, cardinality - compute exactly the corresponding set operation within the declared universe 0..fd_max_integer (and clip to fd_vector_max when a sparse representation is needed, flagging it).", "quantifier": "all ranges, all values, all vector sizes", "why_tests_cant": "word-boundary bit manipulations over all sets", "anchors": ["src/EngineFD/fd_range.c: Pl_Range_Inter, Pl_Range_Union, Pl_Range_Compl, Pl_Range_Set_Value, Pl_Range_Reset_Value, Pl_Range_Next_After, Pl_Range_Next_Before, Pl_Range_Nb_Elem, Pl_Range_Ith_Elem"]}
{"id": "C24", "title": "Finite domain arithmetic images are exact", "statement": "Range addition, subtraction, multiplication, division, modulo by constants and by ranges produce exactly the set of results of the operation on elements (within 0..fd_vector_max for sparse ones).", "quantifier": "all ranges and constants", "why_tests_cant": "as above", "anchors": ["src/EngineFD/fd_range.c: Pl_Range_Add_Value, Pl_Range_Mul_Value, Pl_Range_Div_Value, Pl_Range_Mod_Value, Pl_Range_Add_Range"]}
{"id": "C25", "title": "Telling a domain never loses a value and wakes the right constraints", "statement": "Restricting an FD variable with a value, a disequality, an interval or a set leaves exactly the intersection of its domain with the told set; it fails iff this is empty; the propagation events raised are exactly: min changed, max changed, domain changed, became a value.", "quantifier": "all domains and told sets", "why_tests_cant": "case analysis over representations and boundaries", "anchors": ["src/EngineFD/fd_inst.c: Pl_Fd_Tell_Value, Pl_Fd_Tell_Not_Value, Pl_Fd_Tell_Interv_Interv, Pl_Fd_Tell_Range_Range, Pl_Fd_Tell_Interval"]}
{"id": "C26", "title": "Constraint propagation is sound, terminates at a common fixpoint and leaves a clean queue", "statement": "Propagation never removes a value taking part in a solution; if it succeeds every constraint is at its fixpoint (no constraint could reduce further); if it fails there is no solution; after success or failure the propagation queue is empty and every variable unmarked.", "quantifier": "all constraint networks of monotone propagators, all domains, all wake-up orders", "why_tests_cant": "schedules and networks are unbounded", "anchors": ["src/EngineFD/fd_inst.c: Pl_Fd_After_Add_Cstr, Clear_Queue, All_Propagations", "src/EngineFD/fd_inst.h: Pl_Fd_Before_Add_Cstr"]}
{"id": "C27", "title": "FD domains are restored on backtracking", "statement": "After backtracking to a choice point the domain and dependency information of each FD variable is exactly what it was when the choice point was created, although each is trailed at most once per choice point.", "quantifier": "all histories of tells, choice points, cuts and failures", "why_tests_cant": "time-stamp based conditional trailing is right only if stamps are unique over all histories", "anchors": ["src/EngineFD/fd_inst.c: Trail_Range_If_Necessary, Trail_Chains_If_Necessary", "src/EnginePl/wam_inst.c: Pl_Create_Choice_Point (STAMP)"]}
{"id": "C28", "title": "Compiled first-argument switching selects the right clause block", "statement": "The switch tables on atoms, integers and functors built at load time return for a key the code address registered for it and the default for an unregistered key, for every set of keys.", "quantifier": "all key sets and all lookup keys", "why_tests_cant": "open addressing collisions depend on runtime atom numbers and addresses", "anchors": ["src/EnginePl/wam_inst.c: Pl_Create_Swt_Table, Pl_Create_Swt_Atm_Element, Locate_Swt_Element, Pl_Switch_On_Atom, Pl_Switch_On_Integer, Pl_Switch_On_Structure"]}
{"id": "C29", "title": "Linker symbol mangling is injective and demangling inverts it", "statement": "Two different (module, predicate, arity) triples never get the same assembler symbol, symbols contain only letters, digits and underscore, and decoding the symbol of a triple gives the triple back.", "quantifier": "all modules, names (any bytes) and arities", "why_tests_cant": "names are arbitrary byte strings", "anchors": ["src/TopComp/mangling.c: Mangle, Demangle, String_Needs_Encoding, Encode_String, Decode_String, Copy_Not_Encoded_String"]}
{"id": "C30", "title": "Global variables: backtrackable assignments are undone, others persist", "statement": "After any interleaving of g_assign, g_assignb/g_link and choice points, backtracking gives each global variable the value it had when the choice point was created, except that a non-backtrackable assignment made since then persists (it also cancels older pending restorations of that variable).", "quantifier": "all histories of assignments over any number of variables, choice points and backtracks", "why_tests_cant": "undo records are chained, invalidated and shared with the trail over arbitrary histories", "anchors": ["src/BipsPl/g_var_inl_c.c: G_Assign_Element, G_Trail_For_Backtrack, G_Untrail, G_Free_Element"]}
{"id": "C31", "title": "sub_atom/5 enumerates exactly the decompositions", "statement": "sub_atom(+A, ?B, ?L, ?Af, ?Sub) yields each triple (B,L,Af) of non-negative integers with B+L+Af = length(A) matching the instantiated arguments, with Sub the corresponding factor, each exactly once, and nothing else.", "quantifier": "all atoms, all instantiation patterns and values of the arguments", "why_tests_cant": "unbounded texts and 16 instantiation patterns", "anchors": ["src/BipsPl/atom_c.c: Pl_Sub_Atom_5, Pl_Sub_Atom_Alt_0, Compute_Next_BLA"]}
{"id": "C32", "title": "atom_concat/3 enumerates exactly the splits", "statement": "atom_concat(A1,A2,A3) yields exactly the pairs of texts whose concatenation is A3 (all length+1 splits in increasing order of A1 when both are unbound, the single solution or failure otherwise; only squares when A1 and A2 are the same variable).", "quantifier": "all atoms and instantiation patterns", "why_tests_cant": "unbounded texts", "anchors": ["src/BipsPl/atom_c.c: Pl_Atom_Concat_3, Pl_Atom_Concat_Alt_0"]}
{"id": "C33", "title": "A quoted atom reads back as itself", "statement": "For every atom text (bytes 1..255), writeq/1 of the atom produces a text that the reader turns back into the same atom: quotes are added whenever needed and escapes are inverted.", "quantifier": "all byte strings without NUL", "why_tests_cant": "256^n texts; escape sequences interact with following characters", "anchors": ["src/BipsPl/write_supp.c: Show_Atom", "src/EnginePl/atom.c: Add_Atom", "src/BipsPl/lexer_supp.c: Pl_Lexer_Token, Lexer_Quoted, Lexer_Quoted_Char"]}
{"id": "C34", "title": "List built-ins agree with their logical definitions", "statement": "append/3, member/2, memberchk/2, length/2, nth/3, reverse/2 implemented in C enumerate the same answers in the same order as their textbook Prolog definitions, in every mode.", "quantifier": "all argument instantiation patterns, lists of any length", "why_tests_cant": "modes times lengths is unbounded", "anchors": ["src/BipsPl/list_c.c: Pl_Append_3, Pl_Append_Alt_0, Pl_Member_2, Pl_Length_2, Pl_Nth0_3, Pl_Reverse_2"]}
{"id": "C35", "title": "Register allocation preserves the meaning of clause code", "statement": "Assigning machine registers to the temporaries of a clause never lets one live value overwrite another: every instruction reads the same values as before allocation.", "quantifier": "all instruction sequences, all numbers of temporaries", "why_tests_cant": "liveness and aliasing interactions over all programs", "anchors": ["src/Pl2Wam/reg_alloc.pl: allocate_registers, aliases, create_lst_tmp, assign_lst_tmp"]}
{"id": "C36", "title": "Stream positions are right after any reads and push-backs", "statement": "After any sequence of get, peek and unget operations the reported character count, line count and line position are those of the consumed prefix; peeking consumes nothing.", "quantifier": "all texts and all operation sequences", "why_tests_cant": "push-back across newlines needs a remembered line length; depends on history", "anchors": ["src/BipsPl/stream_supp.c: Pl_Stream_Getc, Pl_Stream_Ungetc, Pl_Stream_Peekc, Update_Counters"]}
{"id": "C37", "title": "Exceptions unwind to the right catcher with a clean state", "statement": "throw(Ball) transfers control to the innermost active catch/3 whose catcher unifies with a copy of Ball, with all bindings made since that catch/3 was called undone; catchers that do not unify are skipped; if the goal exits normally nothing changes.", "quantifier": "all nestings of catch/3 and all throw points", "why_tests_cant": "dynamic nesting and choice point history are unbounded", "anchors": ["src/BipsPl/catch.pl", "src/BipsPl/throw_c.c: Pl_Throw_2"]}
{"id": "C38", "title": "Symbol dictionary of the native compiler stages", "statement": "The string dictionary used by wam2ma/ma2asm assigns consecutive numbers 0,1,2,... to distinct strings in first-seen order, returns the same number for the same string, and lists all strings in sorted order exactly once.", "quantifier": "all sequences of strings", "why_tests_cant": "tree shape depends on the insertion history", "anchors": ["src/Tools/bt_string.c: BT_String_Add, BT_String_Lookup, BT_String_List"]}
{"id": "C39", "title": "Path canonicalisation and decomposition", "statement": "absolute_file_name/2 and the file predicates resolve a path to the canonical absolute path of the file it denotes (variables and ~ replaced, relative paths below the working directory, no '.', '..', empty component or last separator; error above the root); resolving the result again changes nothing; no buffer is overrun. decompose_file_name/4 splits a path into the directory, name and suffix whose concatenation is the path.", "quantifier": "all path strings, environments, home directories, working directories and buffer sizes", "why_tests_cant": "unbounded strings and environments; overruns of a static buffer are mostly silent", "anchors": ["src/EnginePl/os_path.c: Pl_Absolute_Path_Name0, Pl_Decompose_File_Name, Pl_Path_Ends_With_Dir", "src/BipsPl/file_c.c: Pl_Decompose_File_Name_4"]}
{"id": "C40", "title": "Acyclicity test is exact", "statement": "acyclic_term/1 succeeds iff the term contains no cycle and leaves the term unchanged.", "quantifier": "all heaps, all cyclic and acyclic terms", "why_tests_cant": "the term graph is temporarily marked and restored", "anchors": ["src/BipsPl/term_supp.c: Pl_Acyclic_Term_1"]}
{"id": "C41", "title": "is/2 delivers the mathematical value of an integer expression", "statement": "For an expression built from integers and the integer functors + - * // rem div mod /\\ \\/ xor \\ min max abs sign inc dec truncate, X is Expr binds X to the mathematical value of Expr whenever every intermediate value is a Prolog integer, and raises an error otherwise; the outcome value does not depend on the order in which the C compiler evaluates the two operands of an evaluable call.", "quantifier": "every integer expression of any depth, every choice of operand evaluation order at every node", "why_tests_cant": "Expressions have unbounded depth and operands range over 2^61 values each; the operand evaluation order is unspecified in C so a test only sees the one chosen by one compiler.", "anchors": ["src/BipsPl/arith_inl_c.c: Load_Math_Expression, Pl_Arith_Evaluate_2, ADD_EVALUABLE table, macros IFxIFtoIF/IxItoI/ItoI/IFtoIF"]}
{"id": "C42", "title": "Sorted maps of the compiler tools", "statement": "After any sequence of map_put and map_remove, a sorted map contains exactly the keys put and not removed since; map_get finds an entry iff its key is present; map_first/map_last/map_next/map_prev give the least, greatest, next and previous entries, map_foreach visits every entry once in key order; the tree stays balanced, no NULL pointer is followed, the size and counters are exact, and the numbers given to atoms by the assembler generator are 0..n-1 without repetition.", "quantifier": "every total order on keys, every history of operations, every key looked up", "why_tests_cant": "the rebalancing code has many symmetric cases depending on the whole shape of the tree; histories are unbounded", "anchors": ["src/Tools/map_rbtree.h: map_put, map_locate, map_get, map_remove, map_next, map_prev, map_foreach", "src/Tools/rbtree.c: __rb_insert, ____rb_erase_color, rb_first, rb_next", "src/Tools/rbtree_augmented.h: __rb_erase_augmented", "src/Wam2Ma/wam2ma.c: MAP_PUT_ENTRY"]}
{"id": "C43", "title": "Compiled first-argument indexing tries the right clauses in order", "statement": "Calling a compiled predicate tries a subsequence of its clauses in source order, never a clause twice, and tries every clause whose first argument may match the first argument of the call (variable, FD variable, atom, integer, float, list or structure). The last clause of the predicate runs without any remaining choice point of the predicate, no call keeps more than two choice points of the predicate, and when no clause has a variable as first argument and at most one clause matches an atomic, list or structure argument, the call leaves no choice point.", "quantifier": "every list of clauses (any mix of variable, atom, integer, list and structure first arguments, any length) and every first argument of the call", "why_tests_cant": "the code generated depends on the sequence of types and keys of all the clauses (blocks, groups, hash tables, dichotomic tests); a test covers one predicate and one call", "anchors": ["src/Pl2Wam/indexing.pl: indexing, look_for_var, mk_indexing, split, group_by_keys, gen_switch, gen_list, gen_insts", "src/Wam2Ma/wam2ma.c: F_switch_on_term, F_switch_on_integer", "src/EnginePl/wam_inst.c: Pl_Switch_On_Term"]}
{"id": "C44", "title": "write_canonical output reads back under any operators", "statement": "The text write_canonical/1 produces for a term (or write_term with quoted(true) and ignore_ops(true)) is read back by read_term, up to the end of the text or with a full stop added, as the same term up to renaming of variables, whatever the operators defined when writing and whatever those defined when reading; two different terms are never written the same way.", "quantifier": "every finite term (integers in range, finite floats, atoms of any bytes except NUL, structures up to 255 arguments, lists, variables), every pair of operator tables, every setting of the reader flags, every locale", "why_tests_cant": "terms nest without bound and the operator tables of the writer and of the reader vary independently; whether two adjacent tokens glue depends on the last character of one and the first of the other", "anchors": ["src/BipsPl/write_c.c: Pl_Write_Canonical_1", "src/BipsPl/write_supp.c: Pl_Write_Term, Show_Term, Show_Structure, Show_List, Out_Char, Out_String, Emit_Space_If_Needed, Pl_Write_A_Full_Stop", "src/BipsPl/parser_supp.c: Pl_Read_Term, Parse_Term, Parse_Args_Of_Functor, Parse_List", "src/BipsPl/lexer_supp.c: Pl_Lexer_Token"]}
{"id": "C45", "title": "writeq with operators reads back", "statement": "With the same operators for the writer and the reader, the text writeq/1 or write_term(quoted(true)) produces for a term, at any priority and any setting of space_args, is read back by read_term as the same term up to renaming of variables (a term '$VAR'(N) or '$VARNAME'(A) excepted when it is written as a variable). This holds after any sequence of successful or refused calls of op/3: brackets and spaces are put wherever they are needed, in particular around operators as operands, after prefix operators, between - and a number, and before a full stop.", "quantifier": "every finite term, every operator table that op/3 can build, every priority up to 1200, every locale and reader flag setting", "why_tests_cant": "op/3 can build unboundedly many tables (types, priorities, names which are prefix and infix at once); ambiguities only appear for particular nestings of particular operators", "anchors": ["src/BipsPl/write_c.c: Pl_Writeq_1", "src/BipsPl/write_supp.c: Show_Structure, Show_Atom, Emit_Space_If_Needed", "src/BipsPl/parser_supp.c: Parse_Term, Pl_Read_Term", "src/BipsPl/oper_c.c: Pl_Op_3"]}
{"id": "C46", "title": "Streams, aliases and mirrors stay consistent, and a character reaches every mirror", "statement": "After any sequence of open/3-4, term streams, close, set_input/set_output, alias and mirror predicates, including those that fail or raise errors: the three standard streams are open; every alias designates one open stream and user_input, current_output, ... always exist; a stream is never its own mirror nor twice a mirror of the same stream, and mirrors are open streams. Closing a stream removes it from every mirror list, removes its aliases and sends the predefined aliases back to their standard stream, and changes nothing else. Opening uses a number no open stream has and gives it exactly the aliases and mirrors asked. A character put on (or read from) a stream is put on each of its mirrors, transitively, and the reported position of an output stream is the position after the text it received.", "quantifier": "every history of stream predicates with arbitrary arguments (valid or not), every mirror graph, every character", "why_tests_cant": "the state is a graph shared between four tables (streams, aliases, mirror lists, back lists) whose size and history are unbounded; a stale node or alias only shows after a particular order of closes and removals", "anchors": ["src/BipsPl/stream_supp.c: Pl_Add_Stream, Pl_Delete_Stream, Find_Free_Stream, Pl_Set_Alias_To_Stream, Del_Aliases_Of_Stream, Pl_Add_Mirror_To_Stream, Pl_Del_Mirror_From_Stream, Update_Mirrors_To_Del_Stream, Pl_Get_Stream_Or_Alias, Pl_Stream_Putc", "src/BipsPl/stream_c.c: Pl_Open_3, Pl_Close_Stm, Pl_Add_Stream_Mirror_2, Pl_Current_Mirror_2", "src/BipsPl/stream.pl", "src/BipsPl/src_rdr_c.c: Pl_SR_Open_File_2"]}
{"id": "C47", "title": "format/2,3 write the documented text, columns and padding", "statement": "For every format string made of the documented control sequences and every list of arguments that suits them, format/2,3 succeed and append to the stream exactly the texts of the control sequences in order; after `~N|` the column is N (or where the text was, if further), after `~N+` it is N columns after the last boundary; the free space of a column is shared evenly between its `~t`; `~Nr`, `~Nd`, `~ND` write the digits of the integer (in base N, with N decimals, with groups of three). Anything else (unknown control sequence, missing or superfluous argument, argument of the wrong type) is an error. No stream opened by the predicate stays open.", "quantifier": "all formats, all argument lists, all integers, all positions of the output stream", "why_tests_cant": "The layout depends on the sequence of control sequences, on the lengths of the texts between them and on the position of the stream: unboundedly many combinations; the defects are in combinations (new line between `~t` and a boundary, text longer than a block after two `~t`).", "anchors": ["src/BipsPl/format_c.c: Pl_Format_3, Format, Flush_Padding, Read_Arg, Arg_Atom, Arg_Any_String, Arg_Integer, Arg_Float", "src/BipsPl/stream_supp.c: Pl_Add_Str_Stream, Str_Stream_Putc, Pl_Rewind_Str_Stream, Pl_Stream_Printf"]}
{"id": "C48", "title": "Arithmetic constraints are translated into primitive constraints with the same solutions", "statement": "Posting L #= R (or #\\=, #<, #=<, #>, #>=, and the # versions) for arithmetic FD expressions L and R built with +, -, *, **, /, //, rem, quot_rem, min, max, dist over FD variables and integers leaves exactly the assignments of the variables in which the relation holds between the values of the expressions: the primitive constraints posted (with the new variables they introduce) are satisfied only by such assignments, every such assignment extends to the new variables, and the posting fails only if there is none.", "quantifier": "every expression, of any size and nesting, every relation, every sharing of variables, every set of variables already known to be integers (before or as an effect of the constraints posted on the way), every assignment of FD integers", "why_tests_cant": "The translation first normalises into polynomials, sorts them, splits them in two sides and chops them in pieces of three terms; a wrong coefficient, sign, or case shows only for particular shapes and coefficient signs, and the lost or spurious solutions only for particular values, so the combinations of shapes and assignments are unbounded.", "anchors": ["src/BipsFD/math_supp.c: Normalize, Add_Monom, Push_Delayed_Cstr, Load_Left_Right_Rec, Load_Term_Into_Word, Load_Poly, Load_Poly_Rec, Load_Delay_Cstr_Part, Compar_Monom", "src/BipsFD/fd_math_c.c: Pl_Fd_Eq_2, Pl_Fd_Neq_2, Pl_Fd_Lt_2, Pl_Fd_Lte_2", "src/BipsFD/oper_supp.c: Pl_Power", "src/BipsFD/fd_math.pl", "src/EngineFD/fd_inst.c: Pl_Fd_Prolog_To_Value, Pl_Fd_Prolog_To_Fd_Var"]}
{"id": "C49", "title": "FD labeling gives every solution exactly once", "statement": "fd_labeling (any variable method, any value method, with or without reordering) on a list with all the constrained variables terminates; the answers obtained by backtracking are exactly the assignments of the domains that satisfy the posted constraints, each one once, with all the variables instantiated; with the standard variable method they come in lexicographic order (increasing for min and bisect, decreasing for max). The values of one variable are tried in the documented order of the value method. The variable picked by a variable method is a best one for the documented criterion.", "quantifier": "every store, every set of primitive constraints, every list of variables, every option, every random sequence", "why_tests_cant": "The picks depend on a mutable array that is reordered, packed and only partly trailed, on domains which the propagation shrinks, and on choice points which restore them; a lost or repeated solution shows only for particular combinations of shapes, sizes and histories of backtracking.", "anchors": ["src/BipsFD/fd_values.pl: fd_labeling/2, '$fd_labeling_std', '$fd_labeling_mth'", "src/BipsFD/fd_values_c.c: Select_Value, Pl_Indomain_2, Pl_Indomain_Alt_0, Pl_Fd_Sel_Array_From_List_2, Pl_Fd_Sel_Array_Pick_Var_4, Cmp_First_Fail, Cmp_Most_Constrained, Cmp_Smallest, Cmp_Largest, Cmp_Max_Regret", "src/EngineFD/fd_inst.c: Pl_Fd_Assign_Value_Fast, Pl_Fd_Remove_Value, Pl_Fd_In_Interval"]}
{"id": "C50", "title": "fd_minimize and fd_maximize give exactly the optimal solutions", "statement": "fd_minimize(Goal, X) (fd_maximize(Goal, X)), where Goal labels X and the constrained variables, terminates; its answers are exactly the solutions of the posted constraints in which X has its smallest (greatest) value over all the solutions, each of them once; it fails only if the constraints have no solution.", "quantifier": "every store, every set of primitive constraints, every labeling option, every random sequence, every optimized variable", "why_tests_cant": "The branch-and-bound loop restarts after each improvement from restored domains with a bound kept outside of the trail; a wrong bound, a lost restoration or a missing termination shows only for particular sequences of intermediate solutions and at the limits of the integers.", "anchors": ["src/BipsFD/fd_optim.pl: fd_minimize/2, fd_maximize/2", "src/BipsFD/fd_values_c.c: Pl_Fd_Domain_Var_3, Pl_Fd_Domain_Interval", "src/BipsFD/fd_infos_c.c: Pl_Fd_Min_2, Pl_Fd_Max_2, Pl_Fd_Max_Integer_1", "src/EngineFD/fd_inst.c: Pl_Fd_Prolog_To_Value, Pl_Fd_Unify_With_Integer0"]}
{"id": "C51", "title": "A compiled clause head unifies the arguments of the call with those of the head", "statement": "For every clause head and every call of the predicate, the compiled code of the head fails only if the arguments of the call and the arguments of the head have no common instance; if it succeeds, the bindings it makes are exactly those of the unification of the call with the head: with the values given to the variables of the clause, head and call are equal, and no solution of the equation is lost. This holds whatever the options of the compiler (reordering of the arguments, optimisation of the last subterm), the mode (building or inspecting a term) and the sharing of variables in the call. The code never leaves a reference from the heap, or from an older environment, to the environment of the clause, so that the environment can be removed before the last call.", "quantifier": "All heads (arbitrary nesting, any mixture of first and later occurrences, temporary, permanent and anonymous variables, atoms, integers, floats, lists and structures), all compiler options, all well formed memories and all arguments of the call", "why_tests_cant": "The code depends on the occurrence and kind of every variable and on the read/write mode chosen at run time at each level; a wrong choice (unify_value for unify_local_value) only shows as a dangling reference much later.", "anchors": ["src/Pl2Wam/code_gen.pl: generate_head, gen_unif_arg, gen_subterm_arg, flat_stc_arg_lst, reorder_head_arg_lst", "src/EnginePl/wam_inst.c: Pl_Get_Atom_Tagged, Pl_Get_Integer_Tagged, Pl_Get_Float, Pl_Get_List, Pl_Get_Structure_Tagged, Pl_Unify_Variable, Pl_Unify_Void, Pl_Unify_Value, Pl_Unify_Local_Value, Pl_Unify_Structure_Tagged", "src/Wam2Ma/wam2ma.c"]}
{"id": "C52", "title": "A compiled clause reaches its last call with exactly the instances of the clause", "statement": "For every clause and every call of its predicate, the compiled code of the body loads the arguments of each goal without ever failing, and when it reaches the last goal the state of the machine represents exactly the instances of the clause: every valuation of the memory gives values to the variables of the clause, the same ones in the head and in all the goals, for which the head is equal to the call, every goal called before is in its answer and the last goal is equal to the arguments which are passed; conversely no such instance is lost. The compiled head fails only if the call is not an instance of the clause. The last call can be made after the environment of the clause has been removed: nothing which remains refers to this environment. All this holds with the classification of the variables (void, temporary, permanent) made by the compiler.", "quantifier": "All clauses (any number of goals, any terms), all compiler options, all well formed memories, all arguments of the call, and all behaviours of the called predicates which return an answer", "why_tests_cant": "A variable wrongly said temporary, a put_value where put_unsafe_value is needed or a wrong order of loading only shows with particular sharing of variables between goals and after the environment has been reused.", "anchors": ["src/Pl2Wam/code_gen.pl: generate_body, gen_load_arg, gen_load_arg_lst, reorder_body_arg_lst, allocate/deallocate", "src/Pl2Wam/internal.pl: internal_format, format_head, format_body, format_pred, format_arg, add_var_to_dico, classif_vars", "src/EnginePl/wam_inst.c: Pl_Put_X_Variable, Pl_Put_Y_Variable, Pl_Put_Unsafe_Value, Pl_Put_List, Pl_Put_Structure_Tagged, Pl_Globalize_If_In_Local"]}
{"id": "C53", "title": "The unifications =/2 compiled inline in a clause body are the unification of both sides", "statement": "For every clause with unifications X = Y between its goals, when the compiled code reaches a call the state of the machine represents exactly the instances of the clause in which both sides of every unification are equal: every valuation of the memory gives values to the variables of the clause for which the head is equal to the call of the clause, all the unifications executed are true, the goals are in the answers of the calls and the arguments passed are those of the goal; no such instance is lost; the code of the unifications fails only if no values of the variables satisfy them. The memory remains well formed: nothing in the global stack refers to the local stack, and the last call can be made without the environment of the clause.", "quantifier": "All clauses with any list of unifications before each goal (any terms on both sides, any variables), all compiler options, all well formed memories and arguments of the call, and all behaviours of the called predicates which return an answer", "why_tests_cant": "The code depends on which of the variables have already an occurrence, are temporary or permanent and are known to be in the heap; a wrong choice only shows when the variable is unbound in the local stack and the environment is reused later.", "anchors": ["src/Pl2Wam/code_gen.pl: gen_inline_pred(=, 2), equal, equal_lst, inline_unif_reg_term, gen_unif_arg, gen_load_arg", "src/EnginePl/wam_inst.c: Pl_Unify_Value_Tagged, Pl_Get_List, Pl_Get_Structure_Tagged"]}
{"id": "C54", "title": "The control constructs of compiled clauses give the answers of Prolog, in order", "statement": "A predicate whose clause bodies are built from goals with `,` `;` `->` `*->` and `!` gives, on every call, exactly the answers defined by Prolog, in order: the answers of a conjunction and of a disjunction come left to right, a cut removes the remaining alternatives of its clause and the next clauses, and nothing else, a condition of `->` is asked for its first answer only, a condition of `*->` for all of them and its else is run only when there is none, and a cut in a condition is local to it.", "quantifier": "all lists of clause bodies (any nesting of the control constructs, any number of clauses), all behaviours of the goals called (any finite list of answers, with or without a choice point left, an error), all states at the call", "why_tests_cant": "The nesting of the constructs is unbounded, each nesting compiles into other auxiliary predicates and shares other cut levels, and whether a wrong choice point is used depends on the number of answers of each goal.", "anchors": ["src/Pl2Wam/syn_sugar.pl: normalize_cuts, normalize_cuts1, normalize_cuts_in_if, normalize_alts, linearize", "src/Pl2Wam/code_gen.pl: '$get_cut_level', '$get_current_choice', '$cut', '$soft_cut'", "src/EnginePl/wam_inst.c: Pl_Get_Current_Choice, Pl_Cut, Pl_Soft_Cut"]}
{"id": "C55", "title": "The byte code of a consulted clause executes exactly the WAM instructions of the clause", "statement": "When a file is consulted, each clause is stored as 32-bit words. Whatever has been consulted before, running these words from the first one, or from the place saved by any call, performs the same sequence of instructions, with the same registers, atoms, integers, floats, functors and arities, calls the same predicates (the native ones by the address of their code), continues after a call at the next instruction, and raises the same existence errors with the same context as the list of instructions produced by the compiler. The emission never writes outside its buffer.", "quantifier": "every sequence of consulted clauses, every clause (list of instructions with operands in range), every starting instruction, every machine state, 32 and 64 bits", "why_tests_cant": "operands range over all integers, atoms, doubles and registers, and their encoding changes at 2^16 and 2^24; the buffer grows according to the lengths of all instructions emitted", "anchors": ["src/BipsPl/bc_supp.c:Pl_BC_Emit_Inst_1", "src/BipsPl/bc_supp.c:BC_Emulate_Byte_Code", "src/BipsPl/bc_supp.c:Pl_BC_Stop_Emit_0", "src/BipsPl/bc_supp.c:BC_BEFORE_CALL", "src/BipsPl/bc_supp.c:BC_AFTER_CALL", "src/BipsPl/consult.pl:$add_clause_term_and_bc"]}
{"id": "C56", "title": "The clause of a grammar rule relates exactly the streams between which its body derives", "statement": "For a rule H --> B (terminals, [], non terminals, variables, ',', ';', '->', '*->', \\+, !, {}) the clause given by expand_term/2 (and by the compiler) is true, read logically, for two streams S0 and S exactly if B derives S0 to S; for a rule H, PB --> B exactly if B derives S0 to some S1 and S is PB in front of S1. The same holds for phrase/2,3. The unifications made during the translation never constrain a stream more than the rule does. Called with an output already known the clause has the same answers as when the output is unified afterwards (steadfastness), and the control constructs keep their meaning.", "quantifier": "all grammar bodies (any nesting), all relations for the non terminals, all goals, all streams", "why_tests_cant": "The translation decides from the shape of the body, the position and the previously translated parts whether to unify at translation time or to add an equation; the combinations of nesting are unbounded and an over-eager unification only shows for some inputs", "anchors": ["src/BipsPl/expand_c.c: Pl_Dcg_Trans_Rule_2, Pl_Dcg_Trans_Body_4, Dcg_Head, Dcg_Body, Dcg_Body_On_Stack, Dcg_Term_List_On_Stack", "src/BipsPl/expand.pl: expand_term/2, phrase/2, phrase/3"]}
{"id": "C57", "title": "Boolean constraints mean their formula", "statement": "A boolean constraint built from #\\, #<=>, #\\<=>, ##, #==>, #\\==>, #/\\, #\\/\\, #\\/, #\\\\/, 0, 1, variables and comparisons (partial or full arc consistency forms) has as solutions exactly the values of its variables for which the formula is true with every boolean variable 0 or 1: no solution is lost, none is added, a term which is no boolean constraint is a type error before anything is posted, and fd_cardinality(List, Count) makes Count the number of true constraints of List. The propagation rules of the reified constraints never remove a value of a solution, decide every instantiation, and remain sufficient after a reified constraint has been replaced by the constraint or its negation; fd_reified_in(X, L, U, B) gives the truth of X in L..U.", "quantifier": "all boolean formulas, all values of their variables, all domains at the time a rule runs or a reified constraint is decided, all lists given to fd_cardinality", "why_tests_cant": "The formula is rewritten by more than sixty cases with both signs and each node is posted in one of three ways depending on its context; formulas are unbounded, and whether a reified constraint is decided too early depends on the history of the domains.", "anchors": ["src/BipsFD/fd_bool_c.c: Pl_Fd_Bool_Meta_3, Simplify, Load_Bool_Into_Word, Set_Equiv, Set_Imply, Set_And, Set_Or, Set_Eq, Set_Neq, Set_Lt, Set_Lte, Pl_Fd_Reified_In", "src/BipsFD/fd_bool_fd.fd", "src/BipsFD/fd_bool.pl: fd_cardinality/2, '$fd_cardinality1'/2, '$truth_of'/2"]}
{"id": "C58", "title": "Inspection and construction of terms", "statement": "functor/3, arg/3 (with an integer), =../2 and term_variables/2-3 succeed with the most general answer of their definition and fail only when there is none, whatever the arguments (variables, atomic terms, lists, structures, terms which share variables); [H|T] is the term '.'(H,T); the variables of a term are listed once each, at their first occurrence from left to right; an instantiation error is raised only if the missing argument is a variable, a representation error only above 255 arguments (or 1048576 variables), any other error only when there is no answer. subsumes_term(G,S) succeeds iff some substitution makes G identical to S without changing S, and leaves no binding. setarg/3-4 changes exactly one argument of the term, and backtracking restores it when asked.", "quantifier": "every well formed memory, every argument words, every term", "why_tests_cant": "The terms, the sharings of variables between the arguments and the states of the stacks are infinitely many; a dangling reference stored in the heap is only visible later.", "anchors": ["src/BipsPl/term_inl_c.c: Pl_Blt_Functor, Pl_Blt_Arg, Pl_Blt_Univ, Pl_Setarg_4, Pl_Term_Variables_2, Pl_Term_Variables_3, Collect_Variable, Pl_Subsumes_Term_2, Check_Variable", "src/BipsPl/term_supp.c: Pl_Treat_Vars_Of_Term", "src/BipsPl/c_supp.c: Pl_Rd_Compound_Check, Pl_Rd_Positive_Check, Pl_Un_Atom_Check, Pl_Un_Integer_Check, Pl_Check_For_Un_List"]}
{"id": "C59", "title": "Numbering of the variables of a term", "statement": "bind_variables(Term, Options) and numbervars(Term, From, Next) bind the variables of a finite term, in the order of their first occurrence, to '$VAR'(N) (or '$VARNAME'(Name), the name of N) where the N are, in increasing order and without holes, the numbers from From which are not excluded; a number is excluded when the list of exclusions has a sub-term '$VAR'(N), a sub-term '$VARNAME'(Name) or an element Name=Var for the name of N; Next is unified with the number after the last one used (From if there is no variable); nothing else is bound, and an error is raised only when From, the list or Next has not the right form.", "quantifier": "every finite term and every list of exclusions (shared variables, repeated occurrences, chains of references), every From and Next, every content left in the work array by previous calls", "why_tests_cant": "The variables are bound while the term is traversed, so the traversal reads words it has itself changed, and the table of excluded numbers is cleared only in part at each call: a defect shows only for certain sharings of variables or certain sequences of calls.", "anchors": ["src/BipsPl/pretty_c.c: Pl_Bind_Variables_4, Var_Name_To_Var_Number, Exclude_A_Var_Number, Collect_Excluded_Rec, Bind_Variable", "src/BipsPl/term_supp.c: Pl_Treat_Vars_Of_Term", "src/BipsPl/pretty.pl: bind_variables/2, numbervars/1, numbervars/3"]}
{"id": "C60", "title": "Symbolic finite domain constraints", "statement": "fd_element(I, List, V) fails iff there is no position I and value V of the domains with V the I-th element of List, otherwise it leaves exactly the positions and the values which occur in such a solution; fd_element_var computes for V the union of the domains of the variables at the positions of I, and for I the positions of the variables which have a value in common with V; fd_atmost, fd_atleast and fd_exactly(N, Vars, V) never lose a solution (the number of variables equal to V is at most, at least, exactly N), fail only if there is none and, when the variables are different, leave only values which occur in a solution; fd_all_different keeps the solutions where all the values are different; fd_relation(Tuples, Vars) is satisfied exactly by the tuples.", "quantifier": "every list of values, every list of variables (with repetitions), every domains (intervals or sparse), every content of the memory which is not initialised", "why_tests_cant": "The domains are sets of any shape, in two representations, and the list of variables has any length: whether a solution can be lost, or a value without solution kept, depends on the combination of all of them.", "anchors": ["src/BipsFD/fd_symbolic_c.c: Pl_Fd_Element_I, Pl_Fd_Element_I_To_V, Pl_Fd_Element_V_To_I, Pl_Fd_Element_Var_I_To_V, Pl_Fd_Element_Var_V_To_I, Pl_Fd_Element_V_To_Xi, Pl_Fd_Atmost, Pl_Fd_Atleast, Pl_Fd_Exactly, Pl_Fd_All_Different_1, Fd_All_Different_Rec", "src/BipsFD/fd_symbolic_fd.fd: pl_fd_element, pl_fd_element_var, pl_fd_atmost, pl_fd_atleast, pl_fd_exactly", "src/BipsFD/fd_symbolic.pl: fd_relation/2, '$lines_to_columns'/2, '$create_column'/3, '$fd_relationc1'/3"]}
{"id": "C61", "title": "The line editor edits the line it shows and stays in its buffers; the history holds the last lines", "statement": "For every sequence of keys typed at the top level (moves, deletions, insertion or overwriting, words, change of case, exchange, tabulation, completion, mark, cut, copy, paste, return, end of file, recall and search in the history) the line, the cursor, the clipboard, the lines which can be recalled and the line returned are those obtained by applying the keys one after the other to the text before and after the cursor, and nothing is read or written outside of the line buffer, of the clipboard and of the lines of the history. Lines typed one after the other, none blank or the same as the line before, are returned with a newline and the last 63 of them can be recalled in order. What was erased before the cursor is put back by the paste. Keys waiting when the line starts are the start of the line.", "quantifier": "every sequence of keys over any number of lines, every size of the buffer, every content of the buffer, every set of separators and of classes of characters", "why_tests_cant": "the number of sequences of keys is infinite and the state (mark, clipboard, circular table of 64 lines) makes a key depend on all the keys before; the accesses outside of the buffers need a mark left beyond the end of the line or a line longer than the clipboard", "anchors": ["src/Linedit/linedit.c: Pl_LE_FGets, New_Char, Skip, Tab_To_Spaces, History_Add_Line, History_Update_Line, History_Get_Line", "src/BipsPl/stream_supp.c: TTY_Getc"]}
{"id": "C62", "title": "Completion of words finds exactly the words with the prefix, their longest common prefix, and displays each once", "statement": "After any history of words added to and removed from the completion dictionary, it contains exactly the words added and not removed since. For every prefix, completion succeeds exactly when a word has this prefix, counts these words, and completes to their longest common prefix (computed from the first and the last word only). Moves among the completions reach exactly these words. find_linedit_completion/2 enumerates them once each in increasing order and leaves no choice point with the last one. The table displayed by two tabulations shows every completion at exactly one place, in columns, and no line fills the width of the screen when the words are shorter than it. After a word, the tabulation key completes the text from the start of this word to the cursor.", "quantifier": "every history of additions and removals, every prefix, every move, every number of retries, every width of the screen, every line and cursor position after a word", "why_tests_cant": "The longest common prefix is computed from two words only and relies on the order of all the others; tests look at a few dictionaries, prefixes and screen widths.", "anchors": ["src/Linedit/completion.c: Pl_LE_Compl_Add_Word, Pl_LE_Compl_Remove_Word, Pl_LE_Compl_Match_First, Pl_LE_Compl_Match_Navig, Pl_LE_Compl_Match_Last", "src/Linedit/linedit.c: Display_All_Completions, Skip, Pl_LE_FGets (tabulation)", "src/BipsPl/le_interf_c.c: Pl_Find_Linedit_Completion_2, Pl_Find_Linedit_Completion_Alt_0"]}
{"id": "C63", "title": "between/3 enumerates exactly the integers of the interval, in order, and is deterministic on the last", "statement": "between(L, U, X) (and for(X, L, U)) with L and U integers: when X is a variable the solutions on backtracking are X = L, L+1, ..., U, each once and in this order, nothing else is bound, and the solution X = U leaves no choice point; when L > U it fails; when X is an integer it succeeds once iff L =< X =< U, without a choice point. A bound which is a variable is an instantiation error, an argument which is neither a variable nor an integer a type error, the arguments being examined in the order L, U, X.", "quantifier": "every content of the terms memory, every arguments, every number of retries", "why_tests_cant": "The intervals, the bindings present before the call and the number of retries are unbounded; a choice point too many or a missed bound shows only for some of them.", "anchors": ["src/BipsPl/control_c.c: Pl_Between_3, Pl_Between_Alt_0", "src/BipsPl/control.pl: between/3, for/3", "src/BipsPl/c_supp.c: Pl_Rd_Integer_Check"]}
{"id": "C64", "title": "name_singleton_vars/1 names exactly the variables which occur once", "statement": "name_singleton_vars(Term), called by portray_clause and listing, binds to '$VARNAME'('_') exactly the variables which have one occurrence in Term; the variables which occur twice or more, and those which are not in Term, are still unbound, and nothing else changes. It raises a representation error only when Term has more than 1048576 different variables.", "quantifier": "every finite term in every memory (shared sub-terms, chains of references, variables in the local or the global stack), every number of occurrences", "why_tests_cant": "The occurrences are counted through an array searched in turn, with marks on its entries and a counter which stops the treatment: an error in the count shows only for some orders of the occurrences.", "anchors": ["src/BipsPl/pretty_c.c: Pl_Name_Singleton_Vars_1, Collect_Singleton", "src/BipsPl/term_supp.c: Pl_Treat_Vars_Of_Term", "src/BipsPl/pretty.pl: name_singleton_vars/1"]}
{"id": "C65", "title": "Type tests, ground/1 and the tests of lists decide what they name", "statement": "For every term, var, nonvar, atom, integer, float, number, atomic, compound, callable, generic_var and non_generic_var succeed exactly on the terms of their kinds, whatever the chain of references to the term. ground(T) ends and succeeds exactly when T has no variables. is_list/1 and list/1 end and succeed exactly on [T1,...,Tn], partial_list/1 on [T1,...,Tn|V] with V a variable, list_or_partial_list/1 on both. An FD variable is not a variable for var/1 but is one for fd_var/1, generic_var/1 and ground/1.", "quantifier": "every finite term of every size in every memory, every chain of references", "why_tests_cant": "The terms and the chains of references are unbounded; ground/1 mixes a recursion and a loop on the last argument, whose boundary depends on the arity.", "anchors": ["src/BipsPl/type_inl_c.c: Pl_Blt_Var, Pl_Blt_Non_Var, Pl_Blt_Atom, Pl_Blt_Integer, Pl_Blt_Float, Pl_Blt_Number, Pl_Blt_Atomic, Pl_Blt_Compound, Pl_Blt_Callable, Pl_Blt_Fd_Var, Pl_Blt_Non_Fd_Var, Pl_Blt_Generic_Var, Pl_Blt_Non_Generic_Var, Pl_Blt_Ground, Pl_Blt_List, Pl_Blt_Partial_List, Pl_Blt_List_Or_Partial_List"]}
{"id": "C66", "title": "call/N adds the extra arguments after the arguments of the closure", "statement": "call(Closure, Y1, ..., Yn) and call_with_args(Atom, Y1, ..., Yn) run the predicate whose functor is the one of the closure and whose arguments are the arguments of the closure followed by Y1, ..., Yn in this order; when there is no such predicate, or when it is a control construct, the goal interpreted is this same term and no existing term is changed. A closure which is a variable gives an instantiation error, one which is not callable (not an atom for call_with_args) a type error, and more than 255 arguments in all a representation error. No register outside the bank of argument registers is accessed.", "quantifier": "every memory state, every closure (atom, list or structure, of any arity), every extra arguments, every table of predicates", "why_tests_cant": "the arguments are moved inside one overlapping bank of registers, with a shortcut for closures of one argument; tests try a few small arities", "anchors": ["src/BipsPl/call_args_c.c:Pl_Call_Closure", "src/BipsPl/c_supp.c:Pl_Rd_Callable_Check", "src/BipsPl/c_supp.c:Pl_Rd_Atom_Check", "src/BipsPl/call_args.pl"]}
{"id": "C67", "title": "current_predicate/1 gives each visible matching predicate exactly once", "statement": "On backtracking current_predicate(Name/Arity) gives exactly the predicates which exist, are visible and unify with the indicator, each once, whether Name and Arity are variables, values or references to values, or one and the same variable (no answer). Visible means: the name does not begin by '$', and in strict ISO mode the predicate is not built-in. With a ground indicator the call is deterministic. The predicates must not be created or removed during the enumeration: creating one when the table is full makes the next answer read freed memory.", "quantifier": "every history of creations and removals of predicates, every indicator and every form of its words", "why_tests_cant": "the retries work on a scan of a hash table saved in a choice point and see the words of the indicator without following references, so the filter differs from the first call; tests try a few predicates and forms", "anchors": ["src/BipsPl/pred_c.c:Pl_Current_Predicate_2", "src/BipsPl/pred_c.c:Pl_Current_Predicate_Alt_0", "src/EnginePl/hash_tbl.c:Pl_HTBL_Next", "src/EnginePl/pred.c:Pl_Create_Pred"]}
{"id": "C68", "title": "random/3 stays in its interval", "statement": "With integers L and U, random(L, U, X) fails when L >= U and otherwise gives an integer X with L =< X < U, whatever number the C library draws; every integer of a small interval can be drawn.", "quantifier": "all integer bounds, all numbers drawn by the C library", "why_tests_cant": "the result goes through roundings of doubles; only extreme draws and large bounds come near the limits, and tests draw a few numbers", "anchors": ["src/BipsPl/random_c.c:Pl_Random_3", "src/EnginePl/machine.c:Pl_Random_Integer", "src/BipsPl/c_supp.c:Pl_Rd_Number_Check"]}
{"id": "C69", "title": "term_hash/2,4 give a value exactly when the levels looked at have no variable; the value depends on the term only and is in the range", "statement": "For every finite term T without NaN, every depth D and range R: term_hash(T, D, R, H) leaves H unbound exactly when D is not 0 and a variable occurs in the first D levels of T (anywhere in T if D is negative). Otherwise H is at least 0, below R when R is positive, and below 2^28 in every case. Two terms which are equal in their first D levels are given the same H, wherever they are stored and however their references are chained (0.0 and -0.0 included). H is the hash of the names, arities and numbers met in prefix order, without a trace of the list constructor, so that [[a]] and [a,[]] always have the same hash. term_hash/2 gives a value exactly for the ground terms.", "quantifier": "for all well-formed memories, finite terms, depths, ranges and hash functions on items", "why_tests_cant": "Tests compare a few terms in a few memories; the independence from the addresses and the exact set of terms with a value concern every term, depth and storage.", "anchors": ["src/BipsPl/term_supp.c:774-786", "src/BipsPl/term_supp.c:795-873", "src/BipsPl/term_supp.c:882-913", "src/BipsPl/b_params.h:45-48", "src/Tools/hash_fct.c:289-345"]}
{"id": "C70", "title": "set_prolog_flag/2 changes exactly one flag to a value of its domain; current_prolog_flag/2 gives every flag once with its value", "statement": "For every table of flags with distinct names: set_prolog_flag(F, V) raises an instantiation error if F is a variable, a type error if F is not an atom, a domain error if F is no flag, an instantiation error if V is a variable, a domain error if V is not in the domain of F (also for a read-only flag), a permission error if F is read-only, in this order. Otherwise it succeeds, the value of F is V and every other flag keeps its value, except for the flag debug, which fails to be set on when there is no debugger. current_prolog_flag(F, V) with an atom F gives the value of F, or a domain error when there is no such flag; with a variable F it gives on backtracking every flag exactly once, in the order of creation, with its value at the time of the answer, even if flags are changed between the answers. No table of values is read out of its bounds.", "quantifier": "for all tables of flags, flags, values and changes between the answers", "why_tests_cant": "Tests set some flags to some values; the precedence of errors, the preservation of the other flags and the bounds of a search without an end test concern every table and value.", "anchors": ["src/BipsPl/flag_supp.c:116-194", "src/BipsPl/flag_supp.c:319-373", "src/BipsPl/flag_supp.c:383-453", "src/BipsPl/flag_c.c:178-231", "src/BipsPl/flag_c.c:247-267"]}
{"id": "C71", "title": "environ/2 gives every variable of the environment once and agrees with the answer for a known name", "statement": "For every environment whose entries have the form Name=Value (a name is not empty, has no '=' and is shorter than 2^20 bytes): environ(N, V) with an unbound N gives on backtracking every variable exactly once, in order, with its whole value, even if it contains '='. With a known name it gives the value of the first variable of this name, and when names are distinct it succeeds exactly with the answers of the enumeration for this name. If an entry has no '=', which execve allows, the enumeration has an undefined behaviour.", "quantifier": "for all environments and names", "why_tests_cant": "Tests run in the environment of the tester; the property concerns every environment, including those no shell produces.", "anchors": ["src/BipsPl/flag_c.c:615-663", "src/BipsPl/flag_c.c:672-712", "src/EnginePl/engine.h:88"]}
{"id": "C72", "title": "char_conversion/2 changes the conversion of one character; current_char_conversion/2 gives every conversion once", "statement": "For every table of conversions: after char_conversion(A, B) the character A is read as B when the flag char_conversion is on, every other character is read as before, current_char_conversion(A, X) gives B (and fails if B is A); nothing is converted when the flag is off, nor is the end of the file. current_char_conversion(I, O) with an unbound I gives on backtracking exactly the characters converted to another one, once each, in the order of their codes. The next answer is fixed when the previous one is given: a conversion removed in between is still given.", "quantifier": "for all tables of conversions, characters and patterns", "why_tests_cant": "Tests try a few conversions; the enumeration is over every table of 256 characters.", "anchors": ["src/BipsPl/read_c.c:382-402", "src/BipsPl/read_c.c:408-445", "src/BipsPl/read_c.c:454-486", "src/BipsPl/flag_supp.h:166-167"]}
{"id": "C73", "title": "current_atom/1 gives every atom which exists at the call exactly once, even if atoms are created meanwhile", "statement": "current_atom(X) with a variable X gives on backtracking atoms without repetition. Each one exists when it is given and does not start with '$'. Every such atom which exists at the call is given, although the program may create atoms between the answers (those may be given or not). current_atom(A) with an atom A succeeds exactly when the enumeration gives A.", "quantifier": "for all tables of atoms and all creations of atoms between the answers", "why_tests_cant": "Tests enumerate the atoms of one run; the property concerns every table and every creation during the enumeration.", "anchors": ["src/BipsPl/atom_c.c:905-935", "src/BipsPl/atom_c.c:944-978", "src/EnginePl/atom.c:583-593"]}
{"id": "C74", "title": "char_code/2 is a bijection between the characters and the codes 1 to 255; lower_upper/2 converts the case but is not a relation", "statement": "char_code(Char, Code) gives the code of a character, gives the character of a code from 1 to 255, or raises the documented error; its two modes are inverse. lower_upper(L, U) with a character L gives or checks its upper case, with a variable L gives the lower case of U, and raises exactly the documented errors. The answer L of lower_upper(L, U), called again with U, succeeds exactly when U is not a lower case letter: lower_upper(X, a) answers X = a but lower_upper(a, a) fails.", "quantifier": "for all pairs of arguments", "why_tests_cant": "Tests try some characters and some wrong arguments; the property fixes the outcome for every pair of arguments, including every integer.", "anchors": ["src/BipsPl/atom_c.c:786-796", "src/BipsPl/atom_c.c:847-857", "src/BipsPl/c_supp.c:125-156", "src/BipsPl/c_supp.c:530-544", "src/BipsPl/c_supp.c:616-625", "src/EnginePl/atom.h:85"]}
