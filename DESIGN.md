# Design: a machine-checked model of fastforward

## 1. Approach

The model is written in Lean 4 as small total functions that mirror the Python functions branch by branch.
Exceptions are values (`Except`, `Option` or an error constructor). Mutation becomes returning the new state.
Loops become folds, structural recursion, or recursion on an explicit measure or fuel. Where fuel is used a theorem
shows that the fuel given is always enough.

Each component has
* `…/Model.lean`: the model. Every definition cites the file and lines in `/repo` and states its simplifications.
* `…/Spec.lean` (where useful): the small independent specification the theorems are stated against.
* `…/Lemmas.lean`: helper lemmas.
* `…/Props.lean`: the property theorems, each with a non-vacuity `example` beside it.

Where the code violates a property, the negation is proved with a concrete witness (`…_refuted`), the strongest
guarded positive statement is proved with the suffix `_partial`, and the disagreement is listed in section 4.

## 2. Trusted base

* Lean 4.33.0's kernel.
* Axioms: at most `propext`, `Classical.choice`, `Quot.sound`. No user axioms, no `sorry`, no `native_decide`, no `bv_decide`.
* The reading of the Python source: theorems are about the model, which was checked against the source by eye only.
* Floating point is not modelled. Numeric code is modelled over exact rationals `ℚ` (or an arbitrary linearly ordered
  field); `torch.round` is modelled as round-half-to-even on `ℚ`. Claims about floats therefore hold up to rounding
  error. Division by zero is modelled as a distinct non-finite outcome wherever the code can divide by zero.
* PyTorch primitives used by the code (`reshape`, `permute`, `clamp`, `min`, `max`, `argsort`, hooks, `named_children`,
  storage identity) are modelled by the mathematical operation their documentation describes.
* Python dictionaries are insertion-ordered association lists; object identity is modelled by natural-number ids.

## 3. Per-property plan

| id | property | model and proof |
|---|---|---|
| C01 | Quantized codes always fit the signed n-bit range | Scalar model of quantize over ℚ with round-half-even (`Quant/Affine`). Direct proof from clamp. |
| C02 | Quantize-dequantize error is at most half a step inside the range and saturates outside | Same model; range from `quantization_range`. Case split on saturation. |
| C03 | Quantize-dequantize is idempotent | Same model; `round` of an integer is the integer. |
| C04 | Quantization preserves order | Monotonicity of floor-based rounding; negation for negative scale plus the reversed-order law. |
| C05 | Setting an asymmetric range and reading it back | `parameters_for_range` over ℚ with ε parameter; field arithmetic. |
| C06 | Symmetric range setting yields a finite positive scale, zero offset and a covering range | Same; refutation at all-zero range, guarded positive theorem. |
| C07 | Dynamic asymmetric quantization reconstructs every element within half a step | List-valued tile; min/max over list; the half-step bound from C02 plus rounded offset. |
| C08 | Tiling is a lossless rearrangement and each row is exactly one tile | Tensors as shape + row-major flat index function; ravel/unravel; induction on rank. |
| C09 | Tiled quantization is element-wise quantization with the parameters of the element's tile | From C08 plus the scalar model. |
| C10 | Granularity accepts exactly the compatible shapes, sizes its parameters by the number of tiles and is recoverable from sizes | Shapes as `List ℕ`; dims as indices; folds mirrored from the code. |
| C11 | Granularity equality implies equal tiling | Inductive granularity type with the code's `__eq__`; refutation for block granularities, partial otherwise. |
| C12 | An accepted storage dtype represents every n-bit code exactly | Representability predicate for binary floats (`∃ m e, |m| < 2^(p+1)`); refutation for integer dtypes. |
| C13 | Quantizer gradients follow the straight-through rule | Elementwise gradient formulas; derivative statements as exact affine identities/`HasDerivAt`. |
| C14 | Scaling a quantized tensor scales its value | Elementwise over lists. |
| C15 | Concatenating quantized tensors equals concatenating their values | Model of predicate and cat over lists of per-tensor quantized tensors; refutation for absent/present offset. |
| C16 | Shape operations on per-channel quantized tensors keep parameters attached to their channels | Index-function tensors; refutation for unsqueeze; partial for negative-free cases. |
| C17 | Topological order is a valid, complete linearisation and cycles are rejected | Kahn's algorithm with fuel; permutation + order proof by invariant. |
| C18 | Cycle reporting is sound and complete | Colour DFS; soundness and completeness. |
| C19 | Ancestor sets are exact reachability | Worklist reachability; invariant. |
| C20 | Scheduled execution computes the graph's denotation | Instruction machine over an abstract effect state; simulation against direct DAG evaluation. |
| C21 | Activation lifetime management never changes results | Liveness proof over arbitrary instruction lists. |
| C22 | Optimization-only execution runs the same optimizations on the same activations | Backward slice proof. |
| C23 | Offloaded execution computes the same results with every module and input on the compute device | Device-tracking machine; refutations of the peephole bugs and partial theorems for the raw passes. |
| C24 | Graph inputs bind like a Python call | Decision logic: binding characterised by an independent relation. |
| C25 | Activation broadcasting aligns batches or fails | List algebra. |
| C26 | Inlining a subgraph preserves meaning | Graph model; simulation under reference renaming. |
| C27 | Temporarily swapped module behaviour is always restored | Small imperative language of nested contexts with exceptions. |
| C28 | Dispatch picks the most recently registered matching kernel of the best priority | Registration history; sorted-list invariant; refinement to a filter over the history. |
| C29 | Temporary kernel registration is undone on exit | Same; equality-based removal. |
| C30 | Global flags are scoped | Nested context language, exceptions as outcomes. |
| C31 | Per-module strictness does not leak | Hook machine; refutations and partial. |
| C32 | Overrides wrap in registration order and removal restores | Functions as values with explicit shared stack; refutation for double call; partial for at most one call. |
| C33 | Disabling and re-enabling quantization is exact and scoped | State machine over nested contexts. |
| C34 | Module queries return exactly the modules whose path matches | Module graph; search worklist with fuel bound; path-language specification. |
| C35 | Alternatives in module queries mean union | Refutations; partial for alternatives without `**`. |
| C36 | Query strings parse to what they denote | Parser over `List Char`; print/parse round trip. |
| C37 | Result collections behave as sets | List-as-set algebra. |
| C38 | Quantization rules apply by specificity then recency | Fold over rules; argmax characterisation. |
| C39 | Tag matching follows the hierarchy | Tags as paths; prefix order. |
| C40 | Shared tensors survive save and load | Association lists keyed by storage descriptors. |
| C41 | Quantizer state round-trips through save and load | Metadata strings encode/parse; refutation for empty parameter sets. |
| C42 | Loading is checked before it is applied | Exceptions as values; state unchanged on error. |
| C43 | Recorded constructor arguments rebuild the object | Constructor-call trace model; refutation for inherited constructors. |
| C44 | Running min-max equals the min and max over everything seen | Fold over batches. |
| C45 | Grid search returns the candidate with the least accumulated error | Grid model; refutation for non-square candidate counts; partial. |
| C46 | Range estimation leaves no trace of its instrumentation | Set-up/tear-down machine; refutation and partial. |
| C47 | Operator argument validation accepts exactly the bindable calls | Binding relation; exact characterisation. |
| C48 | Operator lookup returns the latest registrations first and never guesses | Registration history refinement. |
| C49 | Symbolic type unions form a set algebra | Inductive types with union flattening; refutation of symmetry; partial. |
| C50 | Export stages run in dependency order, each exactly once | DFS topological order with fuel; order/permutation and exact failure. |
| C51 | Pipeline edits keep the pipeline runnable and the other stages' inputs unchanged | Graph edits; acyclicity preservation; refutation for argument order. |
| C52 | GGUF blocks decode to the quantized values | Bytes as `ℕ < 256`; pack/unpack; refutations for −128 and one-sided. |
| C53 | The RoPE row permutation is a bijection that keeps code/scale pairs together | Index arithmetic; bijection. |
| C54 | LPBQ compression bounds the scale error | ℚ arithmetic with rounding. |
| C55 | Exported encodings describe the same affine map | ℚ arithmetic; refutation of the symmetric flag. |
| C56 | First encoding wins and encodings are never duplicated | History refinement. |
| C57 | Tensor name mapping is injective | Pattern list over structured names; injectivity. |
| C58 | Quantization specs spread along view operations only, to a fixpoint | Worklist fixpoint. |
| C59 | Generated quantizer attribute names are unique per scope | Name lists; refutation, partial. |
| C60 | Scoped rewrite rules apply exactly inside their scope | String prefix vs path prefix over `List Char`. |
| C61 | Relative imports resolve like Python's import system | Path arithmetic; refutation for packages; partial. |
| C62 | Quantization status merging after branches is sound | Finite maps of producers. |
| C63 | GPTQ column quantization equals quantizing the full weight | Index arithmetic over shapes. |
| C64 | GPTQ Hessian accumulation is independent of batching | Field arithmetic by induction over batches. |
| C65 | Cache locations of different assets do not collide | Strings as `List Char`; refutation; partial. |
| C66 | Moving elements of a per-tensor quantized tensor commutes with dequantization | Tensors as index functions; any index map. |
| C67 | Top-k of a quantized tensor picks the right elements | Monotonicity of the affine map; refutation for negative scales. |
| C68 | Bulk replacement touches exactly the collected modules | Module tree updates by induction over the collection. |
| C69 | The uniform search grid is the documented grid and covers the data | ℚ arithmetic over the grid; refutations of the grid size. |
| C70 | ONNX QDQ pairs compute what the quantizer computes | ONNX operators as a specification; rounding lemmas; axis from tile. |
| C71 | Turning quantize/dequantize nodes into annotations leaves the float computation | Graph rewriting invariant over the node list. |
| C72 | Autoquant places a quantizer on every assignment whose value can reach a quantized operand | Mini language with an execution relation; simulation; refutations for break, continue, try and exhaustive branches. |
| C73 | GPTQ in blocks computes the column-by-column recurrence | Loop invariants for the inner and outer loop; the recurrence has one solution; counterexample for groups inside blocks. |
| C74 | Weights stored by GPTQ are exactly representable by the stored quantizer | Parameters of a tile are settled once its first column is reached; idempotence (C03). |
| C75 | GPTQ leaves the calibration data unchanged | Batches with a sharing flag; counterexample for shared tensors. |
| C76 | An extracted subgraph computes what its nodes compute in the graph | The cut as a function on graphs; a substitution lemma between the denotations of references in both graphs, by induction on the denotation; counterexamples for equal names and nested attributes. |
| C77 | Batches are processed independently | Induction on the denotation: the stream of a reference at batch j is its denotation on batch j; alignment and transposition of single batches. |
| C78 | Reducing a graph to coarser pieces keeps what it computes | Invariant of the rewiring loop (Sound): every name in the context refers to a reference with the value of the node of that name; the fold outlets by induction on the traversal; the complement by induction on the chain of parents; delegates by the fresh modules. |
| C79 | Plans for data flows compute what they read | The closure of ancestors is characterised by reachability (C19); sorting by position in a valid order puts each node after what it uses. |
| C80 | Algorithms run on the modules their target stands for | Structural induction on targets for normalisation and on selectors for resolution, against the inductive relations Matches and Fails; the override by the equations of the dictionary. |
| C81 | A data flow runs in the context it is declared with | Invariants of the table over histories of operations. |
| C82 | A graph answers each call for the graph as it is built by then | An invariant of histories that ties the cached program to a valid schedule of the graph, then the engine's denotation theorem. |
| C83 | The arguments of a graph call reach the inputs they are meant for | Case analysis of the shape tests and induction over inputs and batches. |
| C84 | A traced graph computes what the exported model computes | Model of `_GraphBuilder` over a type of `fx` graphs with nested bodies; specification: a direct evaluator of the exported graph. Proof: mutual induction over nodes and bodies with an invariant on the graph under construction (closed, ids fresh, leaves ordered, every leaf has a value), using the inlining theorems of C26. |
| C85 | Preprocessing a function for autoquant keeps what it does | Shallow Lean versions of the passes over syntax trees; specification: a big step semantics with fuel for a small Python over arbitrary operations, values and worlds. Proof: a simulation (equal outcome and world, variables equal off the temporaries) for each pass by induction over statements; for isolation a mutual induction over expressions that says what the inserted assignments leave and that the rest evaluates to the same after them. |
| C86 | quantize_model converts every module of a model, or refuses it before changing anything | State: a heap of modules (class, children, contents, number of initializations), shared modules allowed; quantize_model as a function on heaps. Specification: reachable modules, modules to convert, what becomes of each. Proof: an invariant on partly converted heaps (each module is as at first or final), by induction on the depth and the list of children. |
| C87 | A quantizer has the metadata of the place it is put in | State: a heap of metadata objects with references from quantizers and modules; assignments branch by branch. Specification: extension of metadata in terms of tags and attributes. Proof: the cases of an assignment, and induction over programs from the end. |
| C88 | Freezing parameters keeps what the model computes | State: parameters, the quantizer under each name, and overrides; a forward pass is a list of quantizer calls with inputs computed from earlier results. Specification: the results of the pass by folding the original quantizers. Proof: an invariant (each call on a parameter still gives its original result; slots are as at first or stubs) by induction over calls and operations. |
| C89 | Operator annotation tags quantizers with the operators around them | A forward pass is a list of instructions; the model keeps tensor objects with previous function and quantizer, and which object each value is. Specification: operators applied to results of quantizers, and origins of values through quantizers, read off the list. Proof: an invariant relating objects to values, by induction over the pass. |
| C90 | Attention computes attention, and masked positions do not count | Heads are lists of real matrices, minus infinity is none, quantizers are arbitrary functions on tensors. Specification: the weighted average, written independently. Proof: lengths and elements of the pipeline for elementwise quantizers, then algebra of sums and of the square root of the scale. |
| C91 | The type in which attention is computed is scoped | A small language with exceptions and blocks; execution with a global setting and instances. Specification: what is read, by scope only, without state. Proof by induction over programs. |
| C92 | Fusing quantized weights keeps what the model computes | Memory of elements, parameters as lists of addresses, quantizers under names of modules. Specification: the weight each module computes with, read off the state. Proof: an invariant over the targets fused so far (each weight is as at first or as all its quantizers want it), by induction over the targets. |
| C93 | Assignments are split into what Python assigns | Expressions as trees with marks for starred elements. Specification: the unpacking rules of Python as an inductive relation between a target, a value and the assignments to leaves. Proof: by induction over the shape, with the split at the starred target. |
| C94 | A quantizer keeps to the range that was set last | State machine with optional scale, offset slot (absent, buffer, parameter) and the operations set and reset with outcomes. Specification: the last range set with success since the last reset, read off the outcomes. Proof: invariant over all lives, with the covering results of C05 and C06. |
| C95 | Sharing repeated quantizer calls does not change what a block does | Expressions with quantizer calls, statements with opaque nested blocks (relations that respect their names); the rewrite index by index with the least free suffixes. Specification: relational semantics, occurrence counts, stability of arguments. Proof: simulation with the invariant that temporaries hold the values of the calls still to come; injectivity of the replacement for the counts. |
| C96 | Modules are exported with the quantization of the tensors they were called with | Argument structures as trees, the loops over inputs and outputs with the position counter, the handler as dictionary in which the first encoding stays; recorders as a machine with hooks and handles. Specification: which tensor each graph input and output stands for, and when a recorder listens. Proof: induction over arguments; invariants over operation sequences. |
| C97 | Renaming in exported ONNX graphs keeps what they compute | Graph over numbered values with a name for each; the two passes of the alteration with the mapping dictionary; the written file is the graph over strings. Specification: one evaluation of graphs over any keys. Proof: naming is injective on the graph, and evaluation commutes with injective renaming. |
| C98 | Generated operators apply the operator to dequantized arguments | The generator as a function from specifications to programs in a small statement language, with an interpreter for Python executing them. Specification: stripping of values, which values fit a type, strictly or not. Proof: each guard leaves its parameter stripped and all others alone, by cases on the form of the type; induction over parameters and over list elements. |
| C99 | Quantizing an expression once before its first use gives the same as quantizing it at each use | Blocks, ifs and loops as a nested type; scopes and their intersection, insertion before the first load and replacement of operands as recursive functions over it. An interpreter with all meanings as parameters. Specification: the program with the quantizer in place. Proof: simulation; nested induction over blocks inside compound statements, where values are constant, and an outer induction over the body that allows changes before the first and after the last use. |
| C100 | Helper functions receive a quantizer of the module for each of theirs, their own for each chain of calls | Functions are numbers; the loop is a step function over a dictionary from call sites to lists of traces, visited in order, with the flag. Termination: with a rank, one more level is right after each iteration. Completeness: a call passes all parameters iff no group of traces has duplicates; traces end with the called and the calling function, which separates groups. Specification: running calls within calls with keyword arguments; induction over two chains. Non-termination: states repeat with period two. |
| C101 | Replacing calls and operators by quantized ones keeps what is computed | Expressions with flags for candidates; the pass is a recursive function with the number of the next quantizer; name resolution, dotted names through calls and subscripts, lookup by object or by name as in the code. Specification: evaluation of expressions in a frame, laws for operators without initialized quantizers, conditions on names. Induction over expressions. Deviations in a small world that satisfies the laws. |
| C102 | Autoquant converts everything that forward methods call, each function once, and ends | A program is given by class dictionaries, resolution orders, attributes, scopes and calls; the two searches, the queue and its rounds are modelled as in the code, with exceptions in the middle of a search. Specification: what Python calls, by inheritance and paths. Invariants over rounds: tasks have an origin, nothing twice, everything found is queued or settled, everything queued is reached; a lexicographic measure for the end. Deviations are small programs. |
| C103 | Names in the generated module do not collide, and references reach what they meant | The two allocators are modelled as loops with a bound that is shown to suffice (candidates with different indices differ because decimal numerals do; pigeonhole). The two transformers act on a small language with locals, globals and keyword arguments; its evaluation is the specification. Simulation by mutual induction on expressions and arguments. Deviations are small functions. |
| C104 | Global names mean the same in the generated module as in the source | A function carries its module, body and what the enclosing scope records for dotted names; the visitor, the records and the sorted imports are modelled as in the code, and run in a world of modules and attributes. Specification: free names with Python scoping. Mutual induction over expressions for soundness and coverage of the imports; then any binding of a name in the result comes from a function that means the same by it. Deviations are small functions. |
| C105 | Quantized layers compute the layers they replace, on quantized operands | Layers as data with their quantizers, forward methods and generated operators branch by branch, errors as values; models as programs over variables that refer to cells of a memory, which layers in place overwrite. Specification: relations for the value of a tensor and for a parameter as it is used; liveness of variables. Simulation between the memory of the original and the values of the converted model for live variables. Deviations with convolutions and activations on integer vectors. |
| C106 | All ways to quantize a tensor give the points of the grid of its parameters | Tensors with types as functions from indices to rationals; kernels and entry points branch by branch with errors as values; conversion to integer types truncates and wraps around. Specification: the grid point for a number, tiles that fit a shape, types with room for all codes (C12). Values by unfolding; entry points agree since the result depends on the granularity through its tile only. Deviations for all data with the types concerned. |
| C107 | Converted methods call the same methods through super() | Python orders of classes by C3 merge; expressions with attributes and calls; the rewriting bottom up as in the code. Specification: evaluation with super objects that look up in the order of the classes of the instance, calls symbolic. The order of the generated class is proved to be itself, QuantizedModule and the order of the original; values of rewritten expressions by mutual induction. Deviations as theorems about any such class. |
| C108 | An export runs the pipeline registered for its target and format, with its options | The registry as a dictionary, normalization of keys as in the code; requests, contexts and the three pipelines on the model of pipelines of C50. Specification: which registration is in force by the history, equality of words up to letters and whitespace, the documented diagrams by stage names. Stages by induction over the calls of a run. |
| C109 | The GGUF file of a model holds every parameter once, with the values the quantized model uses | Extraction, transforms, naming, packing and adding as functions on lists of parameters and dictionaries as in the code; blocks are rows of codes (bytes in C52). Specification: which parameters are to be in the file, which quantizer is theirs, and how llama.cpp reads rows of a projection, without the functions of the export. Each stage by membership, dictionaries by induction. |
| C110 | A quantization function made from two functions calls them with the arguments given | Signatures as lists of parameters; the class of parameters as its fields in dictionary order, with the checks of dataclasses; calls bind keywords as Python does. Specification: what a function gets for its parameters in a call with keywords, and which pairs are compatible, on the signatures only. |
| C111 | The source found for a name is the definition of the object the name stands for | Modules, attributes, own names and captured values of objects as given functions; module sources as blocks of definitions, assignments and branches; lookup, visitor and cache as in the code. Specification: attribute paths from the longest module prefix, and what executing a block binds. |
| C112 | Cleaning a captured graph removes its quantizers and nothing it needs | Graphs as lists of nodes; torch.fx dead code elimination and module deletion as written there. Specification: what running a graph does (effects with their values), needed nodes by induction, references by path prefixes. |
| C113 | Names in module queries mean what they mean where the query is written | Frames with local, enclosing, global and builtin names; the walk over the stack with the frames of the library; text split at dots. Specification: the scoping rule of Python as a relation, attributes as a relation, programs with nested blocks. |
| C114 | Functions applied to quantized tensors never compute on the codes | Arguments as trees over tensors in a memory, so that writes and new storages are visible; registration and dispatch of C28. Specification: a relation that replaces each quantized tensor by a plain one with its values, and the storages a function may write. |
| C115 | Parameters without a value survive tracing and are filled by loading | Parameters and buffers as ordered lists of names and tensor objects with optional values; the context manager as two passes over them around an arbitrary traced computation. Loading as the hook followed by the loading rule of torch, on names as character lists. Specification: what is registered under a name, and the saved value under prefix and name. |
| C116 | Items of an ONNX graph carry the quantization of the tensor they come from | Captured nodes as names with specs, ONNX items as names with an origin; the lookup branch by branch and the loops over nodes, inputs, outputs with their producers, and initializers. Specification: Quantized and Mentions, on lists of nodes. Encodings through the extraction of C55 and C56. |
| C117 | Metadata and vocabulary of a GGUF file describe the model and its tokenizer | The file as a list of keys and values, the writers branch by branch; vocabulary as a list over the range of ids. Specification: what a file says for a key, and how llama.cpp reads scaling and head dimension with its defaults (the reader is not part of the code). |
| C118 | A rewrite rule replaces what its pattern describes, by what its replacement says | Syntax trees with captures are modelled as an inductive type; conversion to a matcher, extraction (later captures replace earlier ones) and substitution are mutual recursive functions. The specification is an inductive relation between pattern, assignment of captures and code; soundness, completeness and uniqueness of the assignment are proved by mutual induction. Grouping is specified by the levels of the expression grammar. |
| C119 | Inserted quantizer statements act exactly where the variable gets its value | Programs with annotated bindings, a transformation that inserts the statements, and one semantics with a switch: with it on, annotated bindings quantize at once (specification); with it off, annotations are ignored (Python). Equality of the run of the transformed program and of the specification is proved by induction over programs; while loops have an arbitrary bound of rounds. |
| C120 | In comprehensions every element is quantized once, and its uses mean its quantized value | Three models: the rewrite of an element expression with its evaluation (temporary variable and calls of the quantizer as state), proved by induction over expressions and elements; the allocation of temporaries as a state machine over events, with an invariant; the resolution of names clause by clause against a specification of Python’s scoping. |
| C121 | Removing redundant parentheses keeps the code valid and its meaning | Expressions with parentheses and whitespace as an inductive type, the transformation as a function with the checks of libcst as failures; the specification erases layout (same expression), states by precedence when a text is read as its tree (grouping), and where line breaks may stand. Induction over expressions. |
| C122 | No operation on tensors is passed over by type inference | Types and values as small inductive types with a typing relation; stored types of nested expressions proved right by induction; the decision of the marking passes against what values the types admit. |
| C123 | Generated code is written where it was asked for, replaces nothing unasked, and covers every module type not yet quantized | Calls as processes with the steps check, truncate, write; schedules are lists of process numbers, crashes are their ends; invariants over schedules. Paths as lists of characters. Existing classes as a list with bases; histories by induction. |
| C124 | Listing the quantizers of a model finds each of them, by every name or exactly once | Modules are trees with identities; the traversals `named_modules` and `named_children` of torch are modelled with their memo. Completeness with duplicates removed: the children of every listed module are remembered, by mutual induction, so the listed modules are closed under children. Grouping and sorting of the summaries are proved against membership, counts and order. Not modelled: the text of a summary, modules registered as None, and cycles, which torch modules cannot be traversed with anyway. |
| C125 | Model conversion finds the quantized class defined last, among those the filter admits | Classes numbered in the order of definition with their bases; events define, enter, leave; an invariant relates the registered pairs to a specification by derivation. Names as characters against lists of parts. Not modelled: the order of the MRO (only its members matter), the warning about several versions, classes that are garbage collected. |
| C126 | A completed save is what is loaded, and an interrupted first save is refused | Files hold nothing readable, a complete save, or a part of a configuration; a save is a list of steps in the order of the code, opening and completing each file; any number of saves take steps in any order. Simplified: a part of a configuration ends between entries (elsewhere it may be unreadable), SafeTensors and JSON files cut off are unreadable. Values are reduced to names and numbers; policies, versions and lazy parameters are in C40 to C42. |
| C127 | Operator specifications mean what they say | Annotations are syntax trees; the specification lists the alternatives without choices that an annotation allows, and those that a type has. Unions are formed by any function that forms unions in the sense of C49. Loading a file is a loop over entries that adds to the table of C48. The parsers of Python and YAML are not modelled. |
| C128 | Passes over code are applied in order and keep its kind | Code is a tree of classes, texts and statements; transformers are arbitrary functions, and may raise or return something that is no code. The loop, the three kinds of passes and the wrapping in a module are modelled one to one. Logging is not modelled. |
| C129 | Mocked packages are importable in their block and leave nothing behind | The interpreter is modelled by sys.meta_path, sys.modules and linecache; import follows the import system of Python: loaded modules first, then the parent, then the finders from the front. Programs are trees of imports and with blocks. Executing the source of a module is not modelled. |
| C130 | Folding temporaries keeps what the code computes | Functions are lists of assignments, unpackings and returns over expressions with arbitrary partial operations; their meaning is an evaluator over stores, independent of the pass. Which nodes are still those that were recorded, after a transformer copied what it visited, is part of the model. |
| C131 | Every warning about code that is not converted is in the generated code | Trees carry what the transformer does to each node; the traversal is on_visit, the parts and on_leave with the stack of warnings. The specification says for each warning above which node it belongs, and collects the comments of the result. |
| C132 | Information that passes leave in the code survives later passes and does not change the code | Expressions with marker nodes, assignments and blocks are inductive types; printing gives a list of tokens; a transformer is a function applied to each node after its parts. The specification lists the marks of an expression and says when two assignments have the same form. |
| C133 | A deep copy of a quantizer is complete and shares nothing that can change with the original | Object graphs as a heap of numbered objects; copy.deepcopy with its memo as a function from states to states, by recursion on a depth bound. Invariant over all states in which some objects are being copied; termination by the number of objects whose contents are not yet copied. |
| C134 | GPTQ measures the layer's own outputs | `Unfold`, the permutations and the flattened weight by index arithmetic, over any commutative ring; convolution with integer coordinates and zero outside the image as specification; sums over blocks by induction. |
| C135 | Repeated log messages are dropped, and only those | The filter as a function of the set of messages seen; histories as lists; induction over the history with the set as invariant. Text by `%s` formatting. |
| C136 | Searching code finds every node of a kind once, breadth first | Nodes as numbers with lists of children, the loop with queue and set of seen nodes; decomposition of the queue into depths; depth as the least number of steps down. |
| C137 | Exactly the listed torch operations are left untouched by autoquant | Importing and attribute access as functions with outcomes; the loop over prefixes against an inductive description of what a dotted name stands for; call expressions with libcst's full names. |
| C138 | Quantization metadata of an ONNX graph is in the saved graph | Items with optional names and dictionaries of metadata, the lookup by name with later items replacing earlier ones, reading back with later entries replacing earlier ones. |
| C139 | Dropping allowzero from Reshape keeps what exported graphs compute | ONNX's rule for the shape given by Reshape as specification; the stage as a map over the nodes of the graph. |
| C140 | Attaching and detaching an override affects exactly the quantizers it was attached to | Overrides by id on quantizers, handles on override instances; refinement to a description of what each operation should do, by induction over histories with an invariant on handles. |
| C141 | Tokenized datasets keep the token stream | Columns as lists of rows of tokens, the tokenizer as any function; a cut as pieces of equal length whose concatenation with a short rest is the stream. |
| C142 | Traced graphs run on every device | Values reduced to their devices; operations on mixed devices are refused; induction over the graph. |
| C143 | Signal-to-noise ratios order by noise, and rounding ties are recognised | Rational elements, samples as lists; squared errors and power by recursion as specification; the ratio before the logarithm. |
| C144 | Copies and moves of quantized tensors keep value and parameters together | Memory as contents by place with a next free place; tensors refer to a place; the value is what memory holds for data and parameters; induction over the parameters. |
| C145 | Operations that get their own line stand where they were evaluated | Nodes by number; recorded insertions with positions that are renewed when nodes are replaced; induction over the insertions, with the lines of the block with all outstanding insertions as invariant. |
| C146 | Collections of quantizers hold quantizers | Collections as lists of results or bare modules, errors as values; an invariant by induction over histories. |
| C147 | The code that is returned, written and imported is the same formatted code, or nothing happens | Commands as functions to exit code and output; the world as files, modules and what was written; an inductive relation for the chain of commands, and case analysis of the arguments. |
| C148 | Exports keep the files of earlier exports | Files as pairs of directory and name, endings as lists of characters; disjointness by cases over the endings, then induction over the history. |
| C149 | Compiling quantization functions changes no result | A state with the flag and the compiled functions; results of all calls of a history compared with the function directly, by induction over the history. |
| C150 | Trying out a range gives what the quantizer gives once the range is set | On the model of the life of a linear quantizer; an invariant over histories that sizes agree, then the parameters of the operator and of the quantizer entry by entry, with an absent offset equal to a zero offset. |
| C151 | Straight-through functions give their own values and pass gradients unchanged | A model of reverse-mode gradients over programs; the specification uses slopes of integer functions, defined by a second-order remainder and shown unique; induction over programs. |
| C152 | Random quantized tensors have the codes of the parameters asked for | The preparation of the offset modelled branch by branch on top of tiled quantization (C09); the code of each element derived from the elementwise theorem there. |
| C153 | Deriving a quantization context never changes an existing one | Contexts and parameters objects in a store; invariants over histories: each context has a parameters object, and without adopted parameters no two have the same one. |

## 4. Where the code and the property disagree

Each row is a theorem that exhibits inputs on which the code, as modelled, breaks the stated property. The guarded positive
theorem beside it (suffix `_partial`) says where the property does hold.

| property | what happens | theorem |
|---|---|---|
| C06 | The full property fails: the all-zero tensor with `allow_one_sided = False` gets scale zero for every bit-width from 2 on, and quantizing its elements with that scale is `0/0`. | `FF.Quant.sym_all_zero_unusable` |
| C06 | With one bit no symmetric scale is finite: the positive scale divides by `2^0 - 1 = 0`. | `FF.Quant.sym_one_bit_not_finite` |
| C10 | For a tile that does not divide the data the inferred granularity is strict and rejects the very shape it was inferred from (in exact arithmetic; the division `5/2` is also exact in floating point). | `FF.Gran.granularity_from_sizes_non_dividing` |
| C100 | If a function is converted twice, such as a method that two classes of modules inherit, the calls of all but the last copy stay as they are: they pass no quantizers, whatever they call. | `FF.Thread.shared_method_left_out` |
| C100 | If a method calls a helper function, this calls a second one, and the second one calls a third one with a quantizer at two places, then the method's call does not pass all quantizers the first helper function needs: it fails. | `FF.Thread.quantizer_not_passed` |
| C100 | With recursive functions calls may not pass all quantizers even though the loop ends. | `FF.Thread.recursion_not_passed` |
| C100 | With recursive functions the loop may never end: for three functions that call each other in a circle and each call a further function with a quantizer, the order of the arguments goes back and forth forever. | `FF.Thread.never_ends` |
| C101 | A call by a global name that does not occur in the function's own code, for example in a lambda or another nested function, is not replaced even if there are operators for what is called, unless the table has the name. | `FF.Replace.unseen_name_not_replaced` |
| C101 | A call through a global dictionary or list, like `ACTIVATIONS[name](x)`, makes the conversion of the function fail: the name in front is taken for what is called, and it cannot be looked up in the table. | `FF.Replace.unhashable_callee_fails` |
| C101 | A parameter or local variable whose name is a name in the table, for example one added with `add_alias`, is taken for the function that the table knows by the name. | `FF.Replace.name_taken_for_alias` |
| C101 | A parameter or local variable with the name of a global function is taken for that function if the name also occurs as the name of an attribute in the code: with the parameter `relu` set to `gelu`, the converted `relu(x)` computes the global `relu`. | `FF.Replace.parameter_taken_for_global` |
| C101 | If there is an operator for a method, it is called without the instance: `self.meth(x, y)` becomes the operator called with `x` as `self` and `y` as `x`. | `FF.Replace.method_without_self` |
| C101 | Without type information operators between plain numbers become calls of quantized operators too, which fail on numbers: `i + i`. | `FF.Replace.numbers_added_by_torch` |
| C101 | `*xy` counts as one argument: `pick(*xy)` with two values in `xy` becomes the operator for one argument, which fails. | `FF.Replace.starred_arguments_miscounted` |
| C101 | `make(1)(x)`, which calls what `make` returns, is taken for a call of `make`: if `make` is converted, the result is `make`'s quantized version called with `x`, here an error. | `FF.Replace.result_of_call_taken_for_function` |
| C101 | `self.act(x)` is converted to an operator for the function that the class has as attribute `act` even if the instance has another one. | `FF.Replace.overridden_attribute_ignored` |
| C102 | A class method of another module type that is called on the class is not converted. | `FF.Worklist.class_method_of_other_class_not_converted` |
| C102 | A function is not converted if the types that are known for the arguments of the call are no tensors, so that the call is not marked. | `FF.Worklist.unmarked_call_not_followed` |
| C102 | A function that is called as an attribute of a plain class is not converted. | `FF.Worklist.function_of_plain_class_not_converted` |
| C102 | A method is not converted if the same function was converted as a helper before: the class keeps the function as it is. | `FF.Worklist.helper_not_converted_as_method` |
| C102 | A method that a class inherits and calls on `self` is not converted: the search looks for methods in the class itself only. | `FF.Worklist.inherited_method_not_converted` |
| C102 | If `forward` is a function of the module (`forward = run`), the functions it calls are not converted: the search looks for its scope under the name of the `def` statement in the class. | `FF.Worklist.aliased_forward_hides_helpers` |
| C102 | If the code calls an object that has no `__module__`, the search stops there, and the functions called after it are not converted. | `FF.Worklist.unreadable_object_stops_search` |
| C102 | The functions called by a helper are not converted if the helper is reached through a module that offers it under another name than that of its `def` statement. | `FF.Worklist.reexported_helper_hides_helpers` |
| C102 | The same if the code calls an object that cannot be hashed. | `FF.Worklist.unhashable_object_stops_search` |
| C103 | A helper that is passed as a value is replaced by the generated helper, whose quantizers nobody provides: calling it fails. | `FF.HelperNames.value_lacks_quantizers` |
| C103 | A local variable with the new name of a helper hides it: the call of the helper reads the variable before it is assigned. | `FF.HelperNames.local_hides_helper` |
| C103 | A method with the name of a helper is renamed: the generated class has no method of that name, so that callers of it get the method of the base class, which is not quantized. | `FF.HelperNames.method_renamed` |
| C103 | A parameter is renamed if a helper has its name: calls that pass it by keyword fail. | `FF.HelperNames.parameter_renamed` |
| C103 | For types `Foo` and `QuantizedFoo` the class generated for the second derives from the class generated for the first: the import of `QuantizedFoo` is hidden by the class statement of that name. | `FF.HelperNames.class_derives_from_other_type` |
| C103 | If the new name of a helper is the name of another, its calls are renamed twice and reach the other one. | `FF.HelperNames.call_renamed_twice` |
| C103 | The keyword of an argument is renamed if a helper has that name, though it is the name of a parameter of the called function: the call fails. | `FF.HelperNames.keyword_renamed` |
| C103 | The new name of a helper may be the name of a function that the module uses and that is not converted: its calls reach the helper, and fail. | `FF.HelperNames.imported_name_taken` |
| C104 | A default that is a global with the name of the parameter is not imported. | `FF.ImportSymbols.default_named_like_parameter` |
| C104 | A global with the name of a builtin is not imported: the generated function uses the builtin. | `FF.ImportSymbols.global_named_like_builtin` |
| C104 | A method that uses a global with its own name finds none in the generated module. | `FF.ImportSymbols.global_named_like_method` |
| C104 | A variable of an enclosing function is imported from the module, which has no such name: the generated module cannot be loaded. | `FF.ImportSymbols.closure_variable_fails` |
| C104 | If a module assigns to a name it has imported, the generated function may read what was imported: imports are in the order of the names of modules. | `FF.ImportSymbols.rebound_import_kept` |
| C104 | If a name is imported from different modules, depending on which exist, all of the imports are generated; the generated module cannot be loaded. | `FF.ImportSymbols.conditional_import_fails` |
| C104 | If an attribute of the result of a call has the name of a global, that global is imported, and the function that is called is not. | `FF.ImportSymbols.attribute_named_like_global` |
| C104 | If functions of two modules use a global with the same name, it is imported twice, and both read the one that is imported last. | `FF.ImportSymbols.same_name_in_two_modules` |
| C104 | In a module with `import torch` and `import torch.nn.functional`, a use of `torch.nn.Linear` imports nothing. | `FF.ImportSymbols.part_of_dotted_import` |
| C104 | Names in the target of an assignment are not imported. | `FF.ImportSymbols.name_in_target_not_imported` |
| C104 | Names that a module gets by `import *` are not imported. | `FF.ImportSymbols.star_import_lost` |
| C105 | A layer normalization without bias gets a quantizer for it, which is never called, whatever it is. | `FF.Layers.layer_norm_has_idle_quantizer` |
| C105 | An activation in place overwrites its input; once it is converted, it does not, and a model that reads the input afterwards computes something else. | `FF.Layers.inplace_lost` |
| C105 | The padding mode of a convolution is lost: a convolution that reflects its input at the borders pads with zeros once it is converted. | `FF.Layers.padding_mode_lost` |
| C106 | Data of an integer type, with no type for dequantized data, is dequantized to integers, whatever the scale; to zeros if the scale is a number between -1 and 1. | `FF.Entry.integers_dequantized_to_integers` |
| C106 | In export mode the type for dequantized data is ignored: the result has the type of the codes. | `FF.Entry.export_ignores_dequantize_dtype` |
| C106 | In export mode with an integer type for the codes, the result is a tensor of that type: of integers, whatever the scale. If the scale is a number between -1 and 1, the result is zero for all data. | `FF.Entry.export_dequantizes_to_integers` |
| C106 | The block size of `quantize_per_block`, documented as the number of blocks, is the extent of a block: with `a` given for an axis of extent `a * b`, there are `b` blocks. | `FF.Entry.block_size_is_not_number_of_blocks` |
| C106 | Tracing in export mode gives the result the type of the data; if a different type for the codes is given, the result has that type. | `FF.Entry.traced_dtype_wrong` |
| C107 | If the generated module knows another class by the name of the class of the method (two classes of one name), or none (a class in a class), a converted call on `super()` fails. | `FF.Super.wrong_class_of_name` |
| C107 | `super().m` that is not called at once — a property, or a method taken for later — is not anchored: if the class converted defines `m`, the converted method finds that, and not what the original finds after the class. | `FF.Super.attribute_not_anchored` |
| C107 | `super()` in class methods is not anchored: a converted class method that calls itself on `super()` calls the original of its own class. | `FF.Super.class_method_not_anchored` |
| C108 | An export refused for want of a pipeline leaves the output directory behind. | `FF.ExportRequest.refused_export_makes_directory` |
| C108 | An option `output_dir` (or `model_name`) takes the place of that of the request: the files go to a directory other than the one requested, which is the one made. | `FF.ExportRequest.option_overrides_directory` |
| C108 | `export` always replaces the weights of the model by fused ones, and has no argument to keep them; a request without options for the same pipeline keeps them. | `FF.ExportRequest.export_always_fuses` |
| C108 | `export` takes a target and format, but for `gguf`/`llama_cpp` it never succeeds: it cannot be given the options this pipeline requires. | `FF.ExportRequest.export_cannot_gguf` |
| C109 | A parameter with two names is looked up under the first of them only: if only the other one has a name in the file, the parameter is missing from it. | `FF.GgufFile.shared_parameter_lost` |
| C109 | A query projection that is not quantized is written without the reordering llama.cpp undoes when it computes: the exported model uses the rows in another order. | `FF.GgufFile.float_projection_misread` |
| C109 | If the configuration says that word embeddings are tied, the output layer is not written, even if its parameter is another one with other values. | `FF.GgufFile.untied_output_lost` |
| C109 | The quantizer of a model that is itself one layer is not found: its weight is written in floats, not with the quantized values the model computes with. | `FF.GgufFile.single_layer_not_quantized` |
| C109 | Two quantized parameters with one name in the file: one of them is lost without an error. (Two float parameters also; one of each kind is refused.) | `FF.GgufFile.same_name_lost` |
| C11 | Two per-block granularities with different blocks compare equal but tile differently. | `FF.Gran.granularity_eq_unsound` |
| C110 | A parameter named `data` other than the first cannot be given. | `FF.CreateFn.data_parameter_unusable` |
| C110 | A parameter without a default that only `dequantize` has, or that follows one with a default by keyword, makes the two functions unusable together, although every call with keywords would say what is meant. | `FF.CreateFn.required_after_optional_refused` |
| C110 | Defaults that Python compares as equal, such as `1` and `True`, need not be the same: `quantize` is then called with the default of `dequantize`. | `FF.CreateFn.equal_defaults_replaced` |
| C111 | A function or class of a package that has the name of one of its modules is not found by that name: the answer is the module, or an error. | `FF.Source.module_hides_member` |
| C111 | Of two definitions of a name in the branches of an `if` or `try`, the second is found, although the module has executed the first. | `FF.Source.last_branch_found` |
| C111 | The definition found for an object that bears the name of another one is that of the other. | `FF.Source.copied_name_followed` |
| C111 | The source of a decorated function is not found if the decorator has captured a value without a name, such as a number, whatever else it has captured. | `FF.Source.unnamed_capture_fails` |
| C111 | Two objects that bear each other's names are not found, however deep Python may recurse. | `FF.Source.swapped_names_not_found` |
| C112 | A quantizer below a module that the graph calls is neither reported nor removed: what the graph computes still depends on it. | `FF.Cleanup.quantizer_below_called_module_kept` |
| C112 | A quantizer that two modules share stays under its second name if the second module is used, although nothing refers to it. | `FF.Cleanup.shared_quantizer_kept` |
| C113 | A query with an empty context sees the names of its caller. | `FF.QueryCtx.empty_context_ignored` |
| C113 | A rule added to a configuration by a string does not see the names of its author: names are those of the function `add_rule`, whatever they mean where the rule is written. | `FF.QueryCtx.rule_ignores_author` |
| C113 | A variable of an enclosing function that the function itself does not use is not found, or another one of its name is. | `FF.QueryCtx.unused_variable_not_seen` |
| C113 | An extension that was replaced within a `with` block is not known after it. | `FF.QueryCtx.replaced_extension_lost` |
| C113 | With a space after the colon, as in the documentation, no class is found. | `FF.QueryCtx.space_not_ignored` |
| C114 | A quantized tensor inside an object that is no list, tuple or dictionary is not dequantized; the function is computed on its codes. | `FF.TorchFn.hidden_in_object` |
| C114 | A write through a function that has no kernel is lost: after `q.data = x` or with `out=q` the quantized tensor is what it was, and there is no error. | `FF.TorchFn.write_lost` |
| C114 | An in-place operation on a plain tensor is refused as well as soon as an operand is quantized: `x += q` is an error. | `FF.TorchFn.inplace_on_plain_refused` |
| C114 | Within a kernel a quantized tensor is its codes for all functions: a kernel that does no more than call another function gives the result of that function for the codes. | `FF.TorchFn.kernel_sees_codes` |
| C114 | `is_nonzero` is among the functions passed on and looks at the codes: for any code but 0 there is an offset for which the value is 0 and the answer is that it is not. | `FF.TorchFn.is_nonzero_of_codes` |
| C114 | `q.cuda(0)` moves to the current device, whichever it is. | `FF.TorchFn.cuda_zero_is_current` |
| C114 | `to(..., copy=True)` makes no copy if the tensor is at the device already. | `FF.TorchFn.no_copy_made` |
| C114 | `x.view_as(q)` for a plain tensor of the shape of the quantized one fails: the kernel for quantized tensors is chosen. | `FF.TorchFn.view_as_of_plain_fails` |
| C115 | A buffer without a value that is not part of the state is part of it after tracing. | `FF.Lazy.buffer_enters_state` |
| C115 | A quantizer whose scale is loaded and whose offset, a buffer, is not in the state says that all its parameters have values, though the offset has none. | `FF.Lazy.offset_without_value_unreported` |
| C115 | A tensor without a value that a module has under two names is replaced under the first alone. | `FF.Lazy.second_name_left` |
| C115 | Tracing changes the order of parameters: one without a value goes behind those that have one. | `FF.Lazy.order_changed` |
| C116 | A node that is named like a quantized node of the captured graph by coincidence, because names are given anew when the graph is decomposed, carries the spec of that node. | `FF.OnnxMeta.spec_of_namesake` |
| C116 | All ONNX nodes that one quantized node is lowered to carry the spec of its result, also those that compute something else on the way. | `FF.OnnxMeta.inner_nodes_get_output_spec` |
| C116 | All results of a node with several get the spec of the node. | `FF.OnnxMeta.all_results_get_spec` |
| C116 | So do nodes that come from a decomposition: the transposed weight of a linear layer is taken to be quantized like the output of the layer. | `FF.OnnxMeta.decomposed_gets_output_spec` |
| C117 | A configuration that has no base of the rotary embedding under that name gets one million. | `FF.GgufMeta.base_guessed` |
| C117 | A directory that happens to have the name of the tokenizer is read, whatever is in it: tokens or merges changed since it was saved are not in the file. | `FF.GgufMeta.other_directory_used` |
| C117 | A head dimension that is not the embedding divided among the heads is not written for the other architectures, and the file is read with the wrong one. | `FF.GgufMeta.head_dim_ignored` |
| C117 | Of two tokens with the same id the later one is written. | `FF.GgufMeta.later_token_wins` |
| C117 | Scaling of a type without a name in GGUF, such as `llama3`, is written as its factor alone: the file is read as linear scaling by that factor. | `FF.GgufMeta.unknown_scaling_read_as_linear` |
| C117 | The text written for an unused id can be that of a token, which then stands in the vocabulary twice. | `FF.GgufMeta.padding_takes_token` |
| C117 | Tokens with ids beyond the size of the model are not written, without an error. | `FF.GgufMeta.tokens_beyond_size_dropped` |
| C118 | A capture that is in the pattern twice need not stand for the same twice: `{x} + {x}` matches every sum, and the capture is the right operand. The check for captures that are used several times does not see this. | `FF.PatMatch.repeated_capture_matches_anything` |
| C118 | A rule for an expression whose replacement is a statement puts a statement inside an expression. | `FF.PatMatch.statement_in_expression` |
| C118 | A statement is not replaced by several if it shares its line with another one: neither at the statement nor, since the line has two, at the line. | `FF.PatMatch.several_statements_left` |
| C118 | No parentheses are put around what a capture stands for: with the rule `f({x})` to `{x} * c`, the code for `f(a + b)` is `a + b * c`, which reads as `a + (b * c)` and not as the result of the rule. | `FF.PatMatch.operand_taken_away` |
| C118 | Nodes with parentheses of their own do not match: the pattern `a.b` does not match `(a.b)`. | `FF.PatMatch.parentheses_not_ignored` |
| C119 | An annotated parameter that can be passed by keyword only is not quantized. The same holds for positional-only ones. | `FF.Placement.keyword_only_not_quantized` |
| C119 | The variable of a `with` item is quantized after all items are entered: in `with a as x, x as y: return y` the second item is given the value that is not quantized. | `FF.Placement.later_item_sees_unquantized` |
| C119 | Variables that a `with` item binds in a tuple are not quantized, although they are annotated; there is a warning. | `FF.Placement.tuple_item_not_quantized` |
| C12 | The two extra bits are also granted to integer dtypes: every signed integer dtype of `b` bits is accepted for `b+1` and `b+2` bits although it cannot hold the code `2^(b-1)`; every unsigned one although it cannot hold `-1`. | `FF.Quant.int_dtype_accepts_too_much` |
| C120 | A name in the condition of a clause that means the target of this clause is not found: the assignments that are quantized for it are those around the comprehension. | `FF.Compr.condition_name_not_found` |
| C120 | A variable around the comprehension that has the name of its target is quantized too, although its value does not come to the use. | `FF.Compr.outer_namesake_quantized` |
| C120 | After two comprehensions over `x`, one over `y` inside the second has its temporary: `[g(x, x) for x in a]` and then `[f(x, [g(y, y) for y in b], x) for x in a]`: the last `x` reads what the inner comprehension bound to the temporary for `y`. | `FF.Compr.temporary_of_inner_read` |
| C120 | In `[f(x) if t else g(x) for x, t in xs]` the use in the first branch binds the temporary and the other branch reads it. For an element that takes the second branch this is the quantized value of the element before it. | `FF.Compr.value_of_previous_element` |
| C120 | Inside a comprehension over `x`, another one over a variable of the same name changes what the outer one reads: `f(x, [g(x, x) for x in x], x)` reads the temporary of the inner one at the end. | `FF.Compr.inner_namesake_read` |
| C120 | `[f(x) if x else c for x in xs]` fails at the first element: the condition, which is evaluated first, reads the temporary that the branch binds. | `FF.Compr.condition_read_before_bound` |
| C121 | A comment in the line break before a dot is dropped. | `FF.Parens.comment_dropped` |
| C121 | A line break before the brackets of a call or a subscript, or after a dot, is left without parentheses: `(f⏎(x))` becomes `f⏎(x)`, which is two statements or a syntax error. | `FF.Parens.line_break_exposed` |
| C121 | So does `not(x)`. | `FF.Parens.not_without_space_fails` |
| C121 | `return(x)`, `if(x):`, `while(x):` and so on are valid Python, but fail: without the parentheses there would be no space, and `libcst` refuses the node. | `FF.Parens.no_space_fails` |
| C122 | A tensor given by keyword, with a star or in parentheses is missed if the type of another argument is known not to be a tensor: `softmax((x + y), -1)` is not quantized. | `FF.Candidates.tensor_argument_missed` |
| C122 | A variable declared as `Tensor \| None` is not taken for a tensor, also where it has been checked not to be `None`: the declared type is used. `relu(mask)` is not quantized, nor is `mask + 1`. | `FF.Candidates.optional_tensor_missed` |
| C122 | An operator on anything but tensors is taken to give a number. Joined lists of tensors are not recognized: `cat(xs + ys)` is not quantized, although `cat(xs)` is. | `FF.Candidates.joined_sequences_missed` |
| C122 | Operations to be left untouched are marked if an argument is known to be a tensor. | `FF.Candidates.bypassed_marked` |
| C122 | What a method is called on does not count. `self.helper(2)` is not marked, so `helper` is not converted and computes without quantization, and neither is a method of a tensor. | `FF.Candidates.receiver_ignored` |
| C123 | A crash while an existing file is replaced leaves neither the old nor the new code. | `FF.Emit.crash_loses_both` |
| C123 | A module that is loaded already is replaced, whatever it is: with output path `json.py` the module `json`. | `FF.Emit.loaded_replaced` |
| C123 | A suffix that is given twice is taken off twice: the code is written to `model.py.py`, and returned as module `model`, which is not found there. | `FF.Emit.doubled_suffix` |
| C123 | After importing, the same call generates no code: the classes are taken to be quantized already, by the classes that were just generated. With `force_overwrite` the file is replaced by one without them. | `FF.Emit.second_time_empty` |
| C123 | If there is a quantized class anywhere with a base that is not a module, such as a mixin, no model can be converted. | `FF.Emit.mixin_fails` |
| C123 | Modules that are quantized already are converted again: a model with a `QuantizedLinear` gets a `QuantizedQuantizedLinear`. | `FF.Emit.quantized_again` |
| C123 | The check and the write are separate. Two calls for one file that does not exist both end without an error, and only the second one's code is there. | `FF.Emit.both_written` |
| C123 | With another dot the module has a name that Python does not find: `model.v2.py`. | `FF.Emit.dotted_name` |
| C124 | If the module is a quantizer itself, its name with a prefix ends with a dot. | `FF.Listing.trailing_dot` |
| C124 | The state of a shared quantizer is saved under its first name only, although the model has it under both: loaded into a model that does not share it, the second quantizer is not set. | `FF.Listing.shared_saved_once` |
| C124 | Without recursion duplicates are removed even if that is not asked for: the second name of a shared quantizer is missing. | `FF.Listing.second_name_missing` |
| C125 | A class derived from a quantized class takes its place only if the class it is the quantized version of has no base class of its own: class 2 is a layer, class 3 derives from it, class 4 is the quantized version of class 3, and class 5, derived from class 4, is not found, although the same works for the layer itself (classes 6 and 7). | `FF.Registry.subclass_not_found` |
| C125 | A class that names `torch.nn.Module` itself among its bases becomes the conversion of `torch.nn.Module`, whatever was defined before. | `FF.Registry.base_replaced` |
| C125 | A quantized version of two module classes is found for neither of them. | `FF.Registry.two_bases` |
| C125 | The filter is one for all threads: of two overlapping blocks the one that is left last puts back the filter of the other, and it stays. | `FF.Registry.filter_left_behind` |
| C126 | A model that was saved under a name given explicitly is refused, by the same model, unless the name is given again. | `FF.SaveFiles.own_save_refused` |
| C126 | A state saved under a name that is also a path, such as that of a local checkpoint, is not found under it: loading takes the path for that of a configuration; without a name in the model it fails at once. | `FF.SaveFiles.saved_under_path` |
| C126 | If saving over an earlier save of the model is interrupted after the state of the quantizers is written, loading succeeds and sets the new quantizers and the old weights. | `FF.SaveFiles.torn_by_crash` |
| C126 | If the first save of a state is interrupted while the configuration is written, loading succeeds and sets only some of the quantizers. | `FF.SaveFiles.incomplete_state_loaded` |
| C126 | Of two saves to one directory at the same time both succeed, and what is loaded is the quantizers of one and the weights of the other. | `FF.SaveFiles.torn_by_concurrency` |
| C126 | With the path of a configuration the recorded identifier is checked nevertheless, against that of the model; the comment says it is not. | `FF.SaveFiles.path_checked` |
| C127 | A parameter declared as a sequence of quantized tensors, as that of `cat`, does not count as quantized. | `FF.OpSpec.sequence_not_quantized` |
| C127 | An entry whose fallback cannot be imported ends the reading with an `ImportError`, which does not say where, and the errors found before are not reported; an alias that cannot be imported is passed over. | `FF.OpSpec.missing_fallback_aborts` |
| C127 | An entry without `op` or without `fallback` ends the reading with a `KeyError`, which does not say where, and the errors found before are not reported. | `FF.OpSpec.missing_key_aborts` |
| C127 | The documentation's example `conv2d(Tensor, Quantized, Tensor, Quantized) -> Quantized` is refused: types without names are parameters without annotations. | `FF.OpSpec.documented_example_refused` |
| C127 | `*args` and `**kwargs` of a specification are dropped without a message: the operator is that of the specification without them. | `FF.OpSpec.star_dropped` |
| C127 | `aliases` with a single name instead of a list has no effect, without a message: each character is taken for a name, and names that cannot be imported are passed over. | `FF.OpSpec.single_alias_ignored` |
| C128 | A pass that needs metadata returns a copy even if it changes nothing, so that it always counts as having altered the code, and nodes remembered from before are not in the result. | `FF.Passes.unchanged_code_copied` |
| C128 | If a pass that needs metadata puts further statements after the code, they are dropped without a message: for every list of statements the result is the same. The same pass without metadata, on a module, keeps them. | `FF.Passes.statements_after_dropped` |
| C128 | If it puts a statement of the same kind before the code, as a helper function before a function, then the helper is returned and the code that was put in is lost. | `FF.Passes.statement_before_replaces` |
| C128 | The kind of the code is checked against the input of each pass only, so it may become narrower, and then a pass that would return code of the original kind fails. | `FF.Passes.narrowed_kind_binding` |
| C129 | A mock that is entered while it is in use stays on `sys.meta_path` forever, and its modules can be imported after the outermost block. | `FF.PkgMock.reentry_leaks` |
| C129 | A module that is loaded already is used instead of the mock, and leaving the block removes it from `sys.modules` although the mock did not put it there, so that the next import makes a second copy of it. | `FF.PkgMock.loaded_module_wins` |
| C129 | Leaving an inner mock also unloads modules of the outer one with the same name: importing the name again in the outer block gives another module than before. Here the module that was imported in the inner block is the outer one, and it is gone afterwards. | `FF.PkgMock.inner_exit_unloads_outer` |
| C129 | Registering a module below a real package hides the package: in the block none of its real submodules can be imported, if neither they nor the package are loaded. | `FF.PkgMock.real_package_hidden` |
| C130 | A temporary that is used once, but not in an assignment to a single name, loses its assignment and keeps its use: `tmp_1 = e; return tmp_1` becomes `return tmp_1`, which raises, whatever `e` is. | `FF.FoldTemps.returned_temporary` |
| C130 | If a variable in the value is assigned before the use, the code computes something else: `tmp_1 = x; x = 5; y = tmp_1; return y` returns the old value of `x` and becomes `x = 5; y = (x); return y`. | `FF.FoldTemps.reassigned_variable` |
| C130 | If the value of a folded variable mentions a folded variable, the code is broken: both assignments are removed, but only one use is replaced. Isolating candidates produces such chains. `tmp_1 = 1; tmp_2 = tmp_1 + 2; x = tmp_2; return x` returns 3 and becomes `x = (tmp_1 + 2); return x`, which raises. | `FF.FoldTemps.chain_breaks` |
| C131 | Warnings of a statement that is not kept, for example because it is split at semicolons, are lost if no statement is around it: whatever the warnings are, the result has none. | `FF.Warnings.top_statement_loses_warnings` |
| C131 | Warnings that were put above a statement are lost if a statement around it is removed. | `FF.Warnings.removed_with_node` |
| C132 | After any traversal, also one that changes nothing, no quantized call knows the function that it replaced. | `FF.Markers.function_forgotten` |
| C132 | Changing the semicolon of a wrapped assignment has no effect: after splitting `a = 1; b = 2` into lines the semicolon is still there. | `FF.Markers.semicolon_ignored` |
| C132 | Combining blocks loses the comments at the end of the first block and at the beginning of the second; and, if the second has no statements, those at its end. | `FF.Markers.combined_comments_lost` |
| C132 | Unwrapping a block with a single statement loses the comments of the block. | `FF.Markers.unwrapped_comments_lost` |
| C133 | Every quantizer has a hook that is a method of its own. The hook of a copy is a method of yet another quantizer, which has only those attributes that come before the hooks, here `pre`. It is not the copy, and what is assigned to the copy later is not seen there. | `FF.DeepCopy.hook_refers_elsewhere` |
| C133 | Overrides are copied with a quantizer, but the handle that removes an override knows the original only: the copy has a container of overrides of its own, with the same overrides. | `FF.DeepCopy.overrides_stay` |
| C134 | Convolutions accept a single image without batch dimension, but it cannot be used. | `FF.GptqIn.single_image_refused` |
| C134 | Convolutions in groups cannot be quantized, although the number of features is documented to be that of a group: with the activations of such a layer the matrix is too large and is refused. | `FF.GptqIn.groups_refused` |
| C134 | Linear layers accept inputs with any number of dimensions before the features, but only those with two can be used. | `FF.GptqIn.other_dimensions_refused` |
| C135 | Arguments are ignored: after one record, any other with the same message and level is dropped whatever its arguments, and so its text never appears. | `FF.LogFilter.arguments_ignored` |
| C135 | So only the first class with several quantized versions is reported: the warning for the second one is lost, although it says something else. | `FF.LogFilter.second_class_not_reported` |
| C137 | A package that fails to import with another exception makes looking up the names, and with it importing the library, fail, although the name cannot be in use. | `FF.Bypass.other_errors_fail` |
| C137 | The result of a listed operation, when it is called, is taken to be the operation itself: with `torch._check_with(f)(x)` also the outer call is recognised, and with it `d[k](x)` if `d` is listed. | `FF.Bypass.result_recognised` |
| C138 | If saving keeps metadata by itself, every entry is saved twice. | `FF.MetaCopy.saved_twice` |
| C138 | Of two items with the same name, the first is saved with the metadata of the second. | `FF.MetaCopy.same_name_mixed` |
| C138 | The metadata of items without a name is lost, unless saving keeps it. | `FF.MetaCopy.unnamed_lost` |
| C139 | An empty tensor of shape `(0, n)` that is reshaped to `(0, 0)` keeps its shape instead. | `FF.Allowzero.shape_changes` |
| C139 | In the bodies of other nodes, zero stays allowed. | `FF.Allowzero.bodies_stay` |
| C139 | Reshaping `(n, m)` to `(0, m)`, which is an error, gives the shape `(n, m)`. | `FF.Allowzero.refused_becomes_accepted` |
| C139 | Reshaping an empty tensor from `(0, n)` to `(n, 0)` is refused. | `FF.Allowzero.accepted_becomes_refused` |
| C140 | An override that came with a deep copy of a quantizer detaches from the original quantizer, and not from the copy. | `FF.Attach.copy_detaches_original` |
| C141 | A limit beyond the end is announced although there are fewer items. | `FF.Chunks.beyond_the_end` |
| C141 | Columns are cut by the length of the first: tokens of a longer column are lost. | `FF.Chunks.uneven_columns` |
| C141 | With a limit of zero, nothing is given and the whole length announced. | `FF.Chunks.zero_announces_all` |
| C142 | A device without a type stays: a graph traced on `c` with such a cast is refused on `d`. | `FF.DeviceStrip.device_alone_stays` |
| C142 | A positional device stays. | `FF.DeviceStrip.positional_stays` |
| C142 | A tensor that the model creates on its own device, with a type, is created on the default device instead, and using it with an input is refused. | `FF.DeviceStrip.created_on_default` |
| C143 | For samples of little power, at most `eps` per element, the ratio is at most one, that is, no more than 0 dB, even for exact copies. | `FF.Metrics.exact_copy_of_small` |
| C143 | Negative elements are never recognised, not even exact ties. | `FF.Metrics.negative_missed` |
| C143 | One exact sample hides the noise of all others: the ratio is at least the power of that sample divided by the number of samples and `eps`, whatever the others are. | `FF.Metrics.exact_sample_hides` |
| C144 | A deep copy of a quantized tensor that requires a gradient does not require one, unlike that of a plain tensor; its parameters do. | `FF.CopyTensor.deep_forgets_gradient` |
| C144 | In export mode clones, detached and contiguous tensors are not quantized, but real values; those moved to a device stay quantized. | `FF.CopyTensor.real_in_export` |
| C144 | `contiguous` never returns the tensor itself, as it does for plain tensors that are contiguous, although it tests for that: `raw_data` is a new object at each use. | `FF.CopyTensor.contiguous_never_self` |
| C146 | `append` accepts a quantizer that is no search result, after which listing the modules, slices that contain it and `apply` fail. | `FF.Collections.append_bare` |
| C146 | `append` refuses the search results of quantizers too, that is, all search results. | `FF.Collections.append_refuses_all` |
| C146 | `apply` with a function that returns another module makes a collection with that module; in the next slice it is left out, so that a slice of one element is empty. | `FF.Collections.apply_other` |
| C147 | Code that does not run when it is imported has replaced the file when the call fails, also one that may be overwritten and had code that ran. | `FF.Output.written_then_refused` |
| C147 | The arguments are looked at last: with both a path and a writer, or neither, a failing command is what is reported. | `FF.Output.arguments_checked_last` |
| C148 | A model is overwritten by the weights of an export that has the name of its file as name. | `FF.Files.model_overwritten` |
| C148 | With an empty name, the model and its weights are the same file. | `FF.Files.empty_name` |
| C148 | With one file for each weight these are named after the weights only, so that the weights of two models in a directory overwrite each other. | `FF.Files.split_weights_overwritten` |
| C149 | A number of bits given by position reaches the function as it is given, not as a float. | `FF.Compile.position_not_converted` |
| C15 | With an absent offset first and a present offset second the inputs are accepted as "the same parameters" and the second input is read with the wrong offset. | `FF.TOps.cat_mixed_offsets_unfaithful` |
| C150 | A range with one minimum for several maxima can be tried out with an operator, but not be set on a new quantizer. | `FF.LinQ.tried_but_not_set` |
| C151 | Further tensor arguments of a wrapped function never receive a gradient, although the result depends on them and the function itself is differentiable in them: a learned scale passed to a wrapped function is silently not learned. | `FF.Ste.further_arguments_not_learned` |
| C152 | One offset in a tensor for several scales is refused, whatever the rest, although quantization with the same parameters succeeds, and although the same offset given as a number is accepted. | `FF.Random.single_offset_refused` |
| C153 | Contexts made for the same parameters object, as by two calls of a quantization function from `create_quantization_function`, share it: an assignment to the parameters of one changes the other. | `FF.Contexts.shared_parameters` |
| C153 | The context returned by making parameters contiguous is not always a new one: an assignment to its parameters changes the context it was made from, but only if all parameters happened to be contiguous. | `FF.Contexts.contiguous_may_share` |
| C16 | `unsqueeze(0)` of a `2 × 2` tensor quantized per column (axis 1) keeps axis 1, which is now the row axis: the scale of column 1 is applied to row 1. | `FF.TOps.unsqueeze_wrong_axis` |
| C20 | An attribute of a constant never finishes loading: the engine iterates over the constant's reference, whose item access succeeds for every index. | `FF.Orch.const_attribute_diverges` |
| C20 | Without the liveness condition the engine's own bookkeeping fails: a node whose result is not needed runs in no context, and another such node that takes a nested attribute of it (`n[0][1]`) makes the run end in a `KeyError`, although the graph is acyclic, all references are in scope and the output does not depend on either node. | `FF.Orch.dead_nested_attribute_keyError` |
| C22 | A delegate that asks for activations in no context, for a module whose argument is an attribute of an input: the full program runs through, but the pruned program has no contexts, so the input is not stored at all and the run ends in a `KeyError`. | `FF.Orch.no_contexts_fails` |
| C23 | If the graph returns something, the modules are not moved back: the moves come after the instruction that ends the run. Here both modules were on the compute device and end in storage. | `FF.Orch.modules_not_restored` |
| C23 | One part used by two modules: it is extracted again for the second module, from the value in storage, but the move to the compute device is dropped as redundant. | `FF.Orch.part_extracted_again_not_moved` |
| C23 | The module is not moved to the compute device: the move to storage at the beginning and the move to the compute device before the first call are taken for a round trip. The run without offloading succeeds; with offloading the delegate is called with a module on the storage device. This happens whenever the last module of the graph is the first one to run. | `FF.Orch.first_module_left_behind` |
| C23 | Two parts of one value: only the last one is moved to the compute device, because moves are buffered per value and not per part. | `FF.Orch.parts_overwrite_each_other` |
| C26 | An input named `x[0]` is used for the first part of input `x`: with `a` passed for `x` and `b` for `x[0]`, the inlined node takes `b`, where the graph run by itself takes the first part of `a`. | `FF.Orch.part_name_captures` |
| C26 | Delegates of the inlined graph are dropped: a graph whose run optimizes a module no longer does so after it has been inlined. | `FF.Orch.delegates_dropped` |
| C26 | Inlining that fails leaves something behind: inlining the same graph a second time, with its original module, is refused with a `ValueError`, but the graph then holds a fold for it that has no members. | `FF.Orch.failed_inlining_leaves_fold` |
| C28 | With the same kernel and predicate registered twice, ending the older registration removes the newer one instead, so the dispatcher prefers a kernel that was registered before the one still in force. | `FF.Dispatch.duplicate_registration_wrong_removal` |
| C31 | A module that is called again while it runs (recursion, shared modules) leaves the setting changed, without any exception. | `FF.Strict.reentry_leaks` |
| C31 | If `forward` of a module with a handle raises, the global setting stays changed: for every module, handle and state in which the handle changes the setting. | `FF.Strict.exception_leaks` |
| C31 | Two handles on one module leave the setting of the first one in force, without any exception. | `FF.Strict.two_handles_leak` |
| C32 | An override that calls its continuation twice gets different functions: the first call consumes the overrides below it, the second one bypasses them. Here an override that adds 1 is below an override that adds the results of two calls. | `FF.Overrides.second_continuation_call_skips_overrides` |
| C34 | a module registered twice under the same parent is only known to torch's `named_children` by its first name, so a query for the second name finds nothing. | `FF.MPath.second_name_not_found` |
| C35 | `{**,**/c}` means every module, since its first alternative is `**`, but selects only what `**/c` selects. | `FF.MPath.brace_star_alternative_dropped` |
| C35 | an alternative `**` next to another one loses the empty match: `x/**` selects x itself and everything below it, but `x/{**,a}` does not select x. | `FF.MPath.brace_star_misses_parent` |
| C35 | the query `{**}` — braces around a single `**` — makes the search run forever on every module with at least one child: no number of rounds suffices. | `FF.MPath.brace_star_diverges` |
| C35 | with shared fragment objects (aliases `&a`, `&b`, `&c`) two different pairs of braces can have the same list of fragments, and the search skips the one it meets later. `x/{a,c/b}` selects a, but as the second alternative of `{x/{a/c,b}, x/{a,c/b}}` it is skipped and a is not selected. | `FF.MPath.brace_shared_fragments_skipped` |
| C37 | results are compared by name and parent as well as by module. A module that is shared by two parents and found once below each is listed twice in the union, and is missing from the intersection although both collections contain it. | `FF.MPath.shared_module_counted_twice` |
| C38 | A quantizer that is shared — here stub 1 as `a` and as `b` — is only replaced at one of its places. | `FF.QConfig.shared_quantizer_replaced_once` |
| C40 | The key leaves out the element type: of two views of the same memory as different types one comes back as the other. | `FF.SaveLoad.view_with_other_type_lost` |
| C41 | A model that uses one layer under two names: its quantizers can be saved, but loading them into such a model with stubs fails under the default policy. | `FF.SaveLoad.shared_layer_not_loadable` |
| C41 | A name with a comma can be saved but the file cannot be loaded. | `FF.SaveLoad.name_with_comma_not_loadable` |
| C41 | A quantizer without parameters can be saved but the file cannot be loaded: the empty list of entries is read as one (malformed) entry. | `FF.SaveLoad.quantizer_without_parameters_not_loadable` |
| C42 | If the second of two quantizers has no place in the model, the first has been attached when the exception is raised. | `FF.SaveLoad.half_loaded` |
| C42 | If the weights do not fit, the quantizers have been attached when the exception is raised. | `FF.SaveLoad.weights_mismatch_after_attach` |
| C43 | An object of a class that inherits its constructor can be dumped, but loading it always fails. | `FF.Serialize.inherited_constructor_not_loadable` |
| C43 | Arguments of `__new__` are recorded on the class: after a second object has been created, the first one is dumped with the arguments of the second and loads as a copy of it. | `FF.Serialize.new_arguments_overwritten` |
| C45 | If the grid has more candidates than are evaluated — the uniform grid for every number of candidates above four that is not a square, with an offset and data below zero — and every evaluated candidate has a positive error, then a candidate that was never evaluated is chosen. | `FF.MinError.unevaluated_candidate_chosen` |
| C45 | The uniform grid for an asymmetric quantizer and data below zero has unevaluated candidates for every number of candidates above four that is not a square. | `FF.MinError.uniform_grid_too_large` |
| C46 | If a quantizer is met that the estimator does not support, then the overrides on the quantizers before it stay: the `try` block begins after the preparation. | `FF.Estimate.setup_failure_leaks` |
| C47 | For a signature with a positional-only parameter, `f(a, /, b)`, the first positional argument of a call is bound to `b`. | `FF.Operator.positional_only_bound_last` |
| C48 | A string alias can silently change its owner: `add_alias` with the name of a registered operator redirects lookups of that name. | `FF.OpTable.name_alias_redirected` |
| C48 | Adding an operator that fails because of an alias still adds the operator. | `FF.OpTable.failed_add_takes_effect` |
| C48 | An operator registered under a second name of a known callable is not found under that name. | `FF.OpTable.second_fallback_name_unknown` |
| C49 | Equality is not compatible with membership: with a type argument that is a union, `x in t` can hold although `x` is not in the union of `t` with another type. | `FF.Symtypes.membership_lost_in_union` |
| C49 | Equality is not symmetric: a union equals every union of some of its variants. | `FF.Symtypes.eqv_not_symmetric` |
| C49 | The hash follows the order of the parameters, so a union can list two equal generic types as different variants. | `FF.Symtypes.equal_variants_kept` |
| C49 | The union of a type with itself is not that type. | `FF.Symtypes.single_union_not_type` |
| C51 | A stage inserted after another one need not run immediately after it. | `FF.Pipeline.inserted_after_runs_later` |
| C51 | A stage inserted before another one with explicit dependencies can run after it. | `FF.Pipeline.inserted_before_runs_after` |
| C51 | If the replaced stage is followed by other inputs of a dependent, the replacement is passed after them instead of in its position. | `FF.Pipeline.replaced_input_moves` |
| C52 | A one-sided quantizer (symmetric, with the offset `2 ^ (n - 1)` in a buffer, chosen by range estimation when all weights are non-negative) passes the validation of the export, but its offset is not exported: with scale one, the weight 15 is quantized without error to code 7 and read back as 7. | `FF.Gguf.one_sided_decodes_wrong` |
| C52 | A weight that the 8 bit quantizer maps to its lowest code is exported as the next higher one. | `FF.Gguf.q8_0_lowest_code_lost` |
| C52 | Scales of at most `2 ^ -25` are stored as zero: the whole block decodes to zero. | `FF.Gguf.tiny_scale_vanishes` |
| C55 | A quantizer without offset (every symmetric quantizer that is not one-sided has none) cannot be annotated: the assertion fails. | `FF.Enc.quantizer_without_offset_fails` |
| C55 | For every quantizer with a zero and a non-zero offset, schema 1.0.0 marks the encoding symmetric. | `FF.Enc.mixed_offsets_marked_symmetric` |
| C55 | Schema 2.0.0 drops the zero points when one channel's offset is zero: the second channel's codes are read with offset zero instead of five. | `FF.Enc.mixed_offsets_lose_zero_point` |
| C55 | Schema 2.0.0 with blocks stores FastForward's offset although the type is unsigned: for every asymmetric block quantizer the consumer's value of every code is `2 ^ (n - 1)` steps too high. | `FF.Enc.block_zero_point_shifted` |
| C56 | A second extraction with the same handler (the default argument is one handler for all calls) replaces the contents of the dictionary that the first one returned. | `FF.Enc.earlier_result_overwritten` |
| C57 | `$` also matches before a final newline: every layer parameter collides with the name with a newline appended. | `FF.Naming.trailing_newline_collides` |
| C58 | Two views of one tensor, the second one quantized: the tensor is annotated, the first view is not, although it is connected (and would be annotated if the pass ran again). | `FF.Propagate.sibling_view_missed` |
| C59 | Quantizers named `x` and `quantizer_x` both become `quantizer_x`. | `FF.Names.prefixed_name_clashes` |
| C59 | Two quantizers named `x` and one named `x_1` in the same scope: the first `x` and `x_1` both become `quantizer_x_1`. | `FF.Names.numbered_name_clashes` |
| C60 | A single rule whose replacement matches its own pattern, like `x → f(x)`, is applied forever. | `FF.Pattern.growing_rule_diverges` |
| C60 | The scope of a rule is matched from the start of the qualified name, not as a contiguous part of it: the name of a class on its own never matches inside a module. | `FF.Pattern.contiguous_part_not_matched` |
| C61 | An import in the `__init__.py` of a package `a.b` is resolved in the parent package: `from .c import d` there imports from `a.b.c`, but is resolved to `a.c`. | `FF.Imports.package_resolved_in_parent` |
| C61 | An import that climbs above the top-level package, which Python rejects, is resolved as if it had one dot. | `FF.Imports.beyond_top_level_accepted` |
| C63 | Channel dimensions that name the same granularity in another way (`-1` for the last dimension) are valid for the weight quantizer, which quantizes the weight, but the column quantizer raises `TypeError`. | `FF.GptqCol.negative_channel_refused` |
| C64 | A dataset that begins with an empty batch makes the computation fail, whatever comes after it; an empty batch later is harmless. | `FF.Hessian.empty_first_batch_fails` |
| C65 | Different assets can have the same path: replaced characters are not told apart, and an empty namespace with a tag is the same as the tag as namespace with an empty tag. | `FF.Cache.paths_collide` |
| C65 | With `..` as namespace and tag the path leaves the cache directory. | `FF.Cache.parent_escapes` |
| C67 | With a negative scale (a quantized tensor multiplied by −1) `topk` returns the smallest values. | `FF.TOps.topk_negative_scale` |
| C68 | With `update=False`, `apply` never calls the function: the condition is tested before the call. | `FF.QConfig.apply_without_update_never_calls` |
| C70 | A fractional bit-width is not refused but truncated: `8 + 1/2` bits are exported as 8 bits. | `FF.Qdq.fractional_bits_truncated` |
| C70 | For every odd offset, data exactly between two codes gets different codes. | `FF.Qdq.odd_offset_tie_differs` |
| C70 | Other tilings are not refused. Four 2×2 tiles of a 4×4 weight have four scales; the runtime accepts the node and applies the scales to the columns: element (0, 1) belongs to tile 0 and gets scale 1. | `FF.Qdq.block_tiling_accepted` |
| C70 | When the negated rounded offset does not fit the storage type (a range that does not contain zero), the dequantized value of every code is wrong, whatever the runtime casts the zero point to. | `FF.Qdq.zero_point_out_of_range` |
| C71 | A tensor with two quantize nodes of different specs (the same activation quantized by the input quantizers of two layers) keeps only the second; both uses become uses of the tensor itself. | `FF.Annotate.requantization_keeps_last` |
| C72 | A loop that ends with `break` inside another loop makes the analysis recurse without end. | `FF.Dataflow.nested_break_recurses` |
| C72 | A value assigned before a `break` in the same iteration is forgotten. | `FF.Dataflow.break_forgets` |
| C72 | A value assigned before a `continue` is forgotten if the rest of the body assigns the variable twice. | `FF.Dataflow.continue_forgets` |
| C72 | A variable that is assigned under a condition in a loop and used in the loop makes the analysis raise: on the second visit, the new record of the assignment does not agree with the one marked on the first. | `FF.Dataflow.conditional_assignment_in_loop_raises` |
| C72 | All assignments of a loop whose body ends with `break` are forgotten. | `FF.Dataflow.unconditional_break_forgets` |
| C72 | An `if` with `else` that assigns `x` in one branch only makes the analysis forget the earlier value of `x`: the value of the parameter reaches the quantized operator through the other branch, but no quantizer is inserted for it. | `FF.Dataflow.exhaustive_if_forgets` |
| C72 | Assignments in a `try` are forgotten. | `FF.Dataflow.try_forgets` |
| C73 | With blocks larger than the groups (the default block size is 128) the scale of a group that begins inside a block is computed from weights that are not corrected for the earlier columns of the block, although the weights that are quantized with it are: in this instance the second group's scale is `1` with blocks of four columns, and `83/84` with blocks of two. | `FF.Gptq.stale_group_weights` |
| C75 | For a linear layer with float32 activations on its device, the computation multiplies the caller's activation tensors in place: afterwards the sample `1` is `√2`, and a second computation on the same dataset (another layer with the same inputs, or a second pass) gives a Hessian twice as large. | `FF.Hessian.activations_overwritten` |
| C76 | A node outside with the name of a chosen node is taken for it: the extracted graph refers to a node it does not contain. | `FF.Orch.name_clash_captures` |
| C76 | A part of a part gets the name of a part: `x[0][1]` and `x[1]` both become the input `x[1]`, so the extracted node gets one value for both. | `FF.Orch.parts_share_input` |
| C76 | Nodes that take nothing from outside are extracted, although the documentation says that this raises a `ValueError`. | `FF.Orch.no_inputs_accepted` |
| C77 | If one batch has no item `y`, the attribute `y` is read for all: a batch that has both gives another value than alone (`4` instead of `3`), and one that has the item only makes the run fail, although each batch alone has a value. | `FF.Orch.mixed_batches_differ` |
| C78 | A fold is placed where its last outlet is computed: a graph in which an earlier outlet is used before that place ends in a `KeyError`. | `FF.Orch.fold_placed_too_late` |
| C78 | A graph that returns a component of a node in a path: the path's graph already returns the component, and the new graph takes the component again, so that the output changes. | `FF.Orch.reduced_part_of_output` |
| C78 | A module and a module inside it are not refused as overlapping: the inner one is computed twice, and what its delegate changes has an effect on the outer one. | `FF.Orch.nested_regions_computed_twice` |
| C78 | A module that returns two results of which the rest of the graph uses one: in the new graph the pair is passed where the one result was used. Here `f` returns the values of `a` and of `b`, and the output changes from `[22]` to `[11, 22]`. | `FF.Orch.fold_tuple` |
| C78 | A module that two nodes call: the region is the first node in the order of insertion, but the delegate goes to the first node in topological order. | `FF.Orch.delegate_on_another_call` |
| C78 | A node named like an input takes its place: what used the input uses the node. | `FF.Orch.node_replaces_input` |
| C78 | A part of a part that goes into a group is replaced by another part: `x[0][1]` becomes `x[1]`. | `FF.Orch.reduced_part_of_part` |
| C78 | A part that is named like an attribute of references, such as `x["id"]`, never becomes the part of what `x` stands for when it goes into a group. | `FF.Orch.attribute_part_lost` |
| C79 | What leaves a node that groups others cannot be bound: every such request ends in a `KeyError`, because the order of execution has no such nodes. | `FF.Orch.output_of_fold_fails` |
| C80 | Without targets, the arguments bound in a partial application are dropped: for every registered function, model and bound arguments, what runs is the algorithm that was registered. With targets it is the partial application. | `FF.Registry.bound_arguments_dropped` |
| C81 | A generator that was registered under the name of the context manager's class is used instead of it. | `FF.Generators.registered_name_hides_manager` |
| C81 | A second context manager whose class has the same name is ignored: the flow runs in the first one. All that are made with `contextlib.contextmanager` have the same class. | `FF.Generators.second_manager_ignored` |
| C82 | Outputs that are added after a call, without adding a node, are not returned: every later call gives what it would have given without them. | `FF.Orch.late_output_ignored` |
| C83 | A graph without inputs accepts an iterable of values that are no tensors, and ignores it, instead of refusing the call. | `FF.Orch.argument_without_input` |
| C83 | A value that can be iterated but is no list, as a tuple of tensors or a mapping, is taken apart when it is passed by position to a graph with one input: its elements (the keys of a mapping) become batches. Passed by keyword it is one value. | `FF.Orch.iterable_argument_split` |
| C83 | Batches that are named tuples with as many fields as the graph has inputs are read by position, whatever their fields are named: a batch whose fields are the inputs in another order is bound to the wrong inputs. | `FF.Orch.named_tuple_by_position` |
| C83 | Only the first batch is checked: later sequences with more values than inputs are accepted and the surplus is ignored. | `FF.Orch.surplus_values_ignored` |
| C84 | A model that returns its input cannot be traced. | `FF.Trace.returned_input_refused` |
| C84 | A module that is traced again with other example inputs, or after it has changed, gets the graph of the first trace. | `FF.Trace.stale_trace` |
| C84 | Constants in the output of a model are left out: the graph of a model that returns `(x, None)` fills the model's return structure with `x` alone, as if the model returned only what it computes. | `FF.Trace.constant_output_dropped` |
| C84 | Whether the original module can be called is decided by the number of its arguments: where `forward(a, b, c=None)` is exported as a call with `a` and `c`, because `b` is not used, the original is called with `c` for `b`. | `FF.Trace.argument_misbound` |
| C85 | A variable that is named like a temporary is overwritten. | `FF.Py.temporary_clobbers` |
| C85 | An attribute that a call changes is read after the call instead of before it. | `FF.Py.read_after_call` |
| C85 | The call in a lambda is moved out of it, where its parameter does not exist: the preprocessed function raises. | `FF.Py.lambda_body_moved` |
| C85 | The call in the target is made before the call that gives the value, instead of after it. | `FF.Py.target_before_value` |
| C85 | The call in the target of an augmented assignment is made twice. | `FF.Py.target_evaluated_twice` |
| C85 | The message of an assertion is evaluated although the assertion holds. | `FF.Py.message_evaluated` |
| C85 | `x += y` no longer changes the value of `x` in place, as it does for tensors and lists. | `FF.Py.in_place_lost` |
| C85 | `y = 0 and f(7)` does not call `f`; the preprocessed function does. | `FF.Py.short_circuit_lost` |
| C86 | A layer that is in two containers: the second container is not converted, since the layer in it is already, and the model is left half converted. All classes have a conversion. | `FF.Convert.shared_module_refused` |
| C86 | A module that is skipped is searched nevertheless: a class without conversion in it, which is not to be converted, refuses the model. | `FF.Convert.skipped_module_checked` |
| C86 | An instance of `torch.nn.Module` itself passes the check, but has no conversion: the model is left half converted. | `FF.Convert.base_module_passes_check` |
| C86 | Surrogates do not suffice for a model with a quantized module, unless quantized modules are skipped; they are documented to always do. | `FF.Convert.surrogates_insufficient` |
| C87 | A quantizer that is put in a second place takes the metadata of that place, so that the first module holds other metadata than its quantizer has. The code warns of this if the metadata differ. | `FF.Metadata.shared_quantizer` |
| C87 | An assignment before the module is initialized for quantization raises, but the attribute is set. | `FF.Metadata.assigned_too_early` |
| C87 | Metadata that lack an attribute are no extension, but the check raises instead of saying so. | `FF.Metadata.missing_attribute_raises` |
| C87 | So an assignment to a name whose metadata have such an attribute raises when the new quantizer is already in place: it is used from then on, with metadata that are not those of the module. | `FF.Metadata.raises_after_assignment` |
| C88 | A quantizer that is called on two parameters is gone after the first: the second stays unquantized. | `FF.Freeze.second_parameter_unquantized` |
| C88 | A quantizer that two modules share is removed from one of them only. | `FF.Freeze.shared_quantizer_stays` |
| C88 | So a quantizer that no pass within the context called freezes its parameter and is removed in a later pass, after the context. | `FF.Freeze.frozen_after_exit` |
| C88 | The overrides are not removed at exit. If quantizers are kept, they give ordinary tensors instead of quantized ones from then on, and activations are no longer quantized. | `FF.Freeze.overrides_stay` |
| C88 | The quantizer of an activation is replaced by a stub as well, although no parameter was frozen with it: the model has other results afterwards, and already within the context. | `FF.Freeze.activation_quantizer_removed` |
| C89 | A quantizer marks its input, not only its result: an operator on the value that was quantized counts as one on the result. Here 7 is applied to the input and not to a result of quantizer 0, as in a residual connection. | `FF.OpTags.residual_mistagged` |
| C89 | An operator on parameters only, such as a transformation of the weights, is not traced: the quantizer after it has no tag. | `FF.OpTags.parameter_operator_untagged` |
| C89 | If a value is quantized twice before it is used, only the last quantizer gets the tag: quantizer 0 misses operator 6. | `FF.OpTags.quantized_twice` |
| C89 | Quantizers other than stubs get no tags, in any forward pass: they are disabled for the pass by an override that is registered after the one that adds the tags. | `FF.OpTags.real_quantizers_untagged` |
| C90 | A negative scale is refused, although attention is defined for it. | `FF.Attention.negative_scale_refused` |
| C90 | Grouped queries with a single head of queries and more heads of keys and values are not refused: the result has no heads. | `FF.Attention.no_heads` |
| C90 | So they do with a quantizer for the mask, which has to give a number for minus infinity. | `FF.Attention.mask_quantizer_leaks` |
| C90 | What torch's function gives is never the result, and if it fails so does the call. | `FF.Attention.fallback_discarded` |
| C90 | With a finite `neg_inf`, a row for which everything is masked is not zero if a score is positive: here it is the masked value. | `FF.Attention.finite_neg_inf_row` |
| C90 | With a finite `neg_inf`, masked keys and values affect the result: the second position is masked, yet its value counts. | `FF.Attention.finite_neg_inf_leaks` |
| C91 | A query in single precision is not computed in the type set, and keys in half precision then stay as they are: there is no result. | `FF.Upcast.mixed_types_fail` |
| C91 | An instance restores what was set when it was made, not when it was entered: here nothing is set around the inner block, yet after it the default is. | `FF.Upcast.restores_too_early` |
| C92 | A weight that is the transpose of another counts as tied, but the quantizers are compared on one of the two only: here both modules have the same quantizer, and fusing the second spoils the first. | `FF.Fuse.transposed_spoilt` |
| C92 | Disabled quantizers: fusing leaves them, stubbing takes them away, so that loading a fused model gives another one than was saved. | `FF.Fuse.disabled_differ` |
| C92 | If a weight is tied to that of a module that does not quantize it, that module computes with the quantized weight afterwards. | `FF.Fuse.tied_unquantized` |
| C92 | The same memory in another shape does not count as tied: quantizers that disagree are accepted, and the first module is spoilt. | `FF.Fuse.reshaped_spoilt` |
| C92 | Tied weights are quantized once for each module: if the quantizer is not idempotent, both modules compute with other weights than before. | `FF.Fuse.tied_quantized_twice` |
| C93 | A sequence of targets behind a star stays one target: in `*(a, b), c = x, y, z` neither `a` nor `b` is a target. | `FF.Assign.starred_targets_nested` |
| C93 | A starred target below the first level is lost where the value is not a display: `a, (b, *c) = d` is not told to assign `c`, although Python does. | `FF.Assign.nested_star_lost` |
| C93 | In a joint assignment from a display nested targets stay nested: in `(a, b), c = (*x,)` neither `a` nor `b` is a target, so that an analysis of names misses them. | `FF.Assign.joint_targets_nested` |
| C93 | Starred elements of the value are taken for single ones: `a, b = *x, y` is told to assign the whole of `x` to `a`, whatever `x` is; if `x` has a single item, Python assigns that. | `FF.Assign.starred_value_misread` |
| C93 | The starred target of a loop, a comprehension or a `with` item is lost at every level: `for a, *b in …` is not told to assign `b`, although Python does. | `FF.Assign.loop_star_lost` |
| C93 | `(a,) = d` is normalized like `a = d`, so that `a` is told to be all of `d`; Python assigns its only item. | `FF.Assign.single_target_misread` |
| C94 | A first attempt that fails leaves the quantizer initialized: with the scale 1, whatever the range was meant to be, it quantizes. | `FF.LinQ.failed_first_set` |
| C94 | It is also stuck with the number of minima of the failed attempt: ranges for another number of tiles, which a new quantizer accepts, are refused until it is reset. | `FF.LinQ.wrong_size_sticks` |
| C95 | A repeated call that has quantizer calls in its argument is stored as it is, and the calls in it are stored again: they are still made repeatedly, also when the block is processed a second time. | `FF.Dedup.inner_call_repeated` |
| C95 | Calls that are repeated in the condition of a `while` loop are made once, before the loop: a loop that ends may become one that does not. | `FF.Dedup.loop_condition_frozen` |
| C95 | If the argument of a quantizer call is assigned between two occurrences of the call, the second occurrence gets the value of the first: `x0 = q(x1); x1 = x2; return q(x1)` returns `q(x1)` for the old `x1`. | `FF.Dedup.argument_reassigned` |
| C95 | Only the names in the block itself are avoided: a variable `_tmp_1` that the function uses outside of the block is overwritten. | `FF.Dedup.outer_temporary_lost` |
| C96 | A module that is called with a tuple of tensors as positional argument cannot be exported, even if none of them is quantized. | `FF.ModIO.nested_argument_fails` |
| C96 | A positional argument that is no tensor is no input of the graph, but counted as one: the inputs after it get the quantization of others. In `f(x, None, y, mask=m)` with `y` quantized, `mask` gets the encoding of `y`, and `y` none. | `FF.ModIO.other_argument_shifts` |
| C96 | A recorder that was detached cannot be attached again. | `FF.ModIO.reattach_fails` |
| C96 | A result that is no tensor is no output of the graph, but counted as one: if a module returns `None` and two tensors, the second one gets the encoding of the first. | `FF.ModIO.none_result_shifts` |
| C96 | If the run of the model with quantization fails, the recorders stay attached to all modules. | `FF.ModIO.failed_run_leaves_hooks` |
| C96 | The quantization of tensors nested in keyword arguments is lost. | `FF.ModIO.nested_keyword_lost` |
| C97 | A name given for an output is not compared with those of other values: calling the output `add` changes what is computed. | `FF.OnnxNames.given_name_taken` |
| C97 | Altering names can change what the exported file computes. | `FF.OnnxNames.alter_changes_meaning` |
| C97 | An input that is returned as it is gets its old name back: the name given for it is lost, even if none is given for outputs. | `FF.OnnxNames.passed_through_input` |
| C97 | If a graph has values `n` and `prefix_n_0`, both initializers or node outputs, and the first is used anywhere, then altering names gives both the same name (unless it goes on with `prefix_prefix_n_0_0`). | `FF.OnnxNames.altered_name_taken` |
| C97 | If a model returns a tensor twice, both outputs get the second name given. | `FF.OnnxNames.returned_twice` |
| C97 | If the graph has an input called `prefix_n_0` and a value `n` of its own, then altering names gives both the same name. | `FF.OnnxNames.altered_input_taken` |
| C98 | A default that is not a string literal becomes one if the declared type is `str`: `mode: str = ...` of `pad` is the string `"..."` in the generated function (fallback.py:1549). | `FF.Gen.other_default_quoted` |
| C98 | A string literal as default of an optional string becomes code. | `FF.Gen.optional_string_unquoted` |
| C98 | Quantized tensors in an optional sequence, or in anything but a plain sequence, reach the operator as they are; and plain ones pass for quantized ones also in strict mode. | `FF.Gen.nested_not_dequantized` |
| C98 | The generated function for an operator without quantized result never returns: it reads a variable `output_quantizer` that it does not have. | `FF.Gen.plain_result_fails` |
| C99 | A variable of the program that has the name of an added one is overwritten: after `y = f(x.T)`, the variable `x_T` is the quantized expression, whatever it was before. | `FF.Hoist.variable_overwritten` |
| C99 | An expression in all branches after the first is quantized in the second only. In `if a: f() elif b: g(x.T) else: h(x.T)`, `h` is called with a variable that has not been assigned. | `FF.Hoist.elif_without_variable` |
| C99 | An expression in an `if` without `else` is evaluated before it. If that raises, the program does, though it does not get there: as in `if x is not None: y = f(x.T)`. | `FF.Hoist.evaluated_without_need` |
| C99 | An expression in the test of an `elif` is quantized in its body, after the test. In `if a: f() elif x.T > 0: g()`, the test reads a variable that has not been assigned. | `FF.Hoist.elif_test_without_variable` |
| C99 | If two operands of a statement are expressions with the same variable, the statement gets the same value for both, whatever their values and quantizers are. | `FF.Hoist.variables_confused` |
| C99 | In `f(k.T); k = k + 1; f(k.T)`, the second call gets the first value, though the value has changed. | `FF.Hoist.stale_value` |
| C99 | The same for `for`: with nothing to iterate over, or if the value is defined in its body only. | `FF.Hoist.evaluated_before_loop` |
| C99 | Two expressions whose code differs only in characters other than letters, digits and `+`, `-`, `*`, `/` have the same variable, such as `w.a_b` and `w.a.b`. | `FF.Hoist.same_variable` |

## 5. What is modelled

One row per Lean module that models or specifies code. The comments of the definitions cite lines; the last column lists the
source files cited.

| module | subject | sources |
|---|---|---|
| `Verif/Algo/GptqColumns.lean` | GPTQ: quantizing one column of a weight | `gptq.py`, `nn/linear_quantizer.py` |
| `Verif/Algo/GptqHessian.lean` | GPTQ: the Hessian | `gptq.py` |
| `Verif/Algo/GptqInputs.lean` | GPTQ: which activations belong to which column of the weight | `gptq.py` |
| `Verif/Algo/GptqSolver.lean` | The GPTQ solver | `gptq.py` |
| `Verif/Autoquant/Annotator.lean` | Where autoquant inserts quantizers for variables | `annotator.py`, `scope.py` |
| `Verif/Autoquant/Assign.lean` | Splitting assignments into assignments of single targets | `node_processing.py` |
| `Verif/Autoquant/Bypass.lean` | Operations that autoquant leaves untouched | `bypass.py` |
| `Verif/Autoquant/Candidates.lean` | Which operations autoquant considers for quantization | `bypass.py`, `nodes.py`, `passes.py`, `type_provider_impl.py` |
| `Verif/Autoquant/Comprehension.lean` | Quantization of the variables of comprehensions | `annotator.py`, `scope.py`, `transformer.py` |
| `Verif/Autoquant/Dedup.lean` | Sharing the results of repeated quantizer calls | `transformer.py` |
| `Verif/Autoquant/Emit.lean` | Writing and importing generated code, and what is generated the next time | `fastforward/autoquant.py`, `importing.py`, `json.py`, `model.py`, `writer.py` |
| `Verif/Autoquant/FilterNodes.lean` | Finding nodes in code | `filter.py` |
| `Verif/Autoquant/FoldTemps.lean` | Folding temporaries | `passes.py`, `scope.py` |
| `Verif/Autoquant/HelperNames.lean` | Names in the generated module | `autoquant.py`, `pybuilder/builder.py` |
| `Verif/Autoquant/Hoist.lean` | Quantization of expressions that are not variables | `annotator.py`, `node_processing.py`, `transformer.py` |
| `Verif/Autoquant/ImportSymbols.lean` | Imports of the generated module | `builder.py`, `scope.py` |
| `Verif/Autoquant/Imports.lean` | Resolving relative imports | `__init__.py`, `scope.py` |
| `Verif/Autoquant/Insertions.lean` | Where isolated operations are inserted | `passes.py` |
| `Verif/Autoquant/MarkerNodes.lean` | Marker nodes | `node_manipulation.py`, `nodes.py`, `passes.py` |
| `Verif/Autoquant/Names.lean` | Names of generated quantizers | `quantizer_collection.py` |
| `Verif/Autoquant/Output.lean` | From generated code to files and modules | `autoquant.py`, `formatter.py`, `importing.py`, `writer.py` |
| `Verif/Autoquant/Parens.lean` | Removing redundant parentheses from source code | `passes.py` |
| `Verif/Autoquant/PassManager.lean` | Running passes over code | `pass_manager.py` |
| `Verif/Autoquant/Pattern.lean` | Rewrite rules restricted to a scope | `pattern.py` |
| `Verif/Autoquant/PatternMatch.lean` | What a rewrite rule matches and what it puts in place | `pattern.py` |
| `Verif/Autoquant/Placement.lean` | Quantizers of variables act where the variables are bound | `transformer.py` |
| `Verif/Autoquant/Preprocess.lean` | Autoquant's preprocessing passes (C85) | `_autoquant/bypass.py`, `_autoquant/cst/nodes.py`, `autoquant.py`, `passes.py` |
| `Verif/Autoquant/Replace.lean` | Replacing calls and operators by quantized ones | `bypass.py`, `function_context.py`, `node_creation.py`, `nodes.py`, `operator.py`, `optable.py`, `passes.py` |
| `Verif/Autoquant/SourceContext.lean` |  | `_import.py`, `source_context.py` |
| `Verif/Autoquant/SuperCalls.lean` | `super()` in converted methods | `autoquant.py`, `builder.py`, `convert.py`, `type_common.py` |
| `Verif/Autoquant/Thread.lean` |  | `autoquant.py`, `builder.py`, `quantizer_collection.py` |
| `Verif/Autoquant/Warnings.lean` | Warnings in generated code | `unimplemented.py` |
| `Verif/Autoquant/Worklist.lean` | Which functions autoquant converts | `autoquant.py`, `bypass.py`, `cst/passes.py`, `function_context.py`, `type_common.py` |
| `Verif/Config/Collections.lean` | Collections of quantizers | `_search.py`, `quant_init.py` |
| `Verif/Config/QuantConfig.lean` |  | `_search.py`, `quant_init.py` |
| `Verif/Config/Tags.lean` |  | `nn/quantizer.py`, `quant_init.py` |
| `Verif/Export/Allowzero.lean` | Reshape without `allowzero` | `_onnx_helpers.py` |
| `Verif/Export/Annotate.lean` | Removing quantize and dequantize nodes from an exported graph | `passes.py` |
| `Verif/Export/Cleanup.lean` |  | `base_pipeline_stages.py` |
| `Verif/Export/Encodings.lean` | Exported quantization encodings | `_export_schemas.py`, `_lpbq.py`, `export/_export_types.py`, `onnx_export_stages.py`, `stages/annotations.py` |
| `Verif/Export/Files.lean` | The files of exports | `onnx_export_stages.py` |
| `Verif/Export/Gguf.lean` | GGUF blocks: packing, row reordering and reading back | `_arch.py`, `_extract.py`, `_packing.py`, `adapter.py`, `gguf_export_stages.py`, `nn/linear_quantizer.py` |
| `Verif/Export/GgufFile.lean` |  | `_arch.py`, `_extract.py`, `adapter.py`, `gguf_export_stages.py` |
| `Verif/Export/GgufMeta.lean` | Metadata and vocabulary of an exported GGUF file | `_arch.py`, `_vocab.py` |
| `Verif/Export/Half.lean` | Half precision scales | `_packing.py` |
| `Verif/Export/Lpbq.lean` | LPBQ: compression of block scales | `_lpbq.py` |
| `Verif/Export/ModuleIO.lean` | Exporting the modules of a model | `_export_schemas.py`, `_io_capture.py`, `module_export.py`, `onnx_export_stages.py` |
| `Verif/Export/Naming.lean` | GGUF tensor names | `_naming.py` |
| `Verif/Export/OnnxNames.lean` | Renaming in exported ONNX graphs | `_onnx_helpers.py`, `onnx_export_stages.py` |
| `Verif/Export/Pipeline.lean` |  | `core.py` |
| `Verif/Export/Propagate.lean` | Spreading quantization specifications through view operations | `passes.py` |
| `Verif/Export/Qdq.lean` | Quantizers as ONNX `QuantizeLinear` / `DequantizeLinear` pairs | `onnx_qdq_export_stages.py` |
| `Verif/Export/Requests.lean` |  | `base_pipeline_stages.py`, `export.py`, `gguf_export_stages.py`, `gguf_llama_cpp_pipeline.py`, `orchestrator.py`, `qnn_onnx_pipeline.py`, `qnn_onnx_qdq_pipeline.py`, `registry.py` |
| `Verif/Granularity/Model.lean` | Granularities: the model of `quantization/granularity.py` | `granularity.py` |
| `Verif/MPath/Collection.lean` |  | `_search.py` |
| `Verif/MPath/Context.lean` |  | `_parser.py`, `_search.py`, `fragments.py`, `mpath/__init__.py`, `quant_init.py`, `selector.py` |
| `Verif/MPath/Model.lean` |  | `_search.py`, `fragments.py`, `selector.py` |
| `Verif/MPath/Parser.lean` |  | `_parser.py`, `selector.py` |
| `Verif/Nn/DeepCopy.lean` | Copying quantizers | `quantizer.py` |
| `Verif/Nn/Layers.lean` | Quantized layers | `_gen/fallback.py`, `activations.py`, `conv.py`, `embedding.py`, `linear.py`, `normalization.py` |
| `Verif/Nn/Lazy.lean` | Quantizer parameters that have no value yet | `nn/linear_quantizer.py`, `nn/quantizer.py`, `trace.py` |
| `Verif/Nn/LinearQuantizer.lean` | The parameters of a linear quantizer over its life | `affine/range.py`, `linear_quantizer.py` |
| `Verif/Nn/Listing.lean` | Listing the quantizers of a model | `quantized_module.py` |
| `Verif/Nn/Metadata.lean` | Metadata of quantizers (C87) | `nn/quantized_module.py`, `nn/quantizer.py` |
| `Verif/Nn/RangeOperator.lean` | The operator for a range | `linear_quantizer.py`, `quantization/_quantizer_impl.py` |
| `Verif/Orch/BindFlows.lean` | Binding data flows to a graph (C79) | `data_flow.py` |
| `Verif/Orch/DeviceStrip.lean` | Devices in traced graphs | `trace.py` |
| `Verif/Orch/Engine.lean` | The instruction engine | `graph_module.py`, `instruction_engine.py` |
| `Verif/Orch/Extract.lean` | Extracting a part of a graph | `graph_module.py` |
| `Verif/Orch/Model.lean` | Call graphs: references, nodes, ordering and reachability | `graph_module.py` |
| `Verif/Orch/Module.lean` | Building and calling a graph module (C82) | `instruction_engine.py` |
| `Verif/Orch/OffloadCases.lean` | Offloading: where it goes wrong (C23) | `orchestration.py` |
| `Verif/Orch/OptOnlyProps.lean` | Running only the optimizations (C22) | `instruction_engine.py`, `orchestration.py` |
| `Verif/Orch/Registry.lean` | The registry of algorithms (C80) | `graph_module.py`, `orchestration.py` |
| `Verif/Orch/Subgraph.lean` | Inlining a graph into another | `graph_module.py` |
| `Verif/Quant/Affine.lean` | Affine quantization: the model | `_quantizer_impl.py`, `quantization/_quantizer_impl.py`, `quantization/affine/range.py`, `quantization/ste.py`, `range.py` |
| `Verif/Quant/Compile.lean` | Compiled quantization functions | `_quantizer_impl.py`, `flags.py` |
| `Verif/Quant/Contexts.lean` | Quantization contexts | `affine/function.py`, `dataclasses.py`, `function.py` |
| `Verif/Quant/CreateFunction.lean` |  | `function.py` |
| `Verif/Quant/Dtype.lean` | Storage dtypes: the model of `can_support_bitwidth` and theorems (C12) | `_quantizer_impl.py` |
| `Verif/Quant/EntryPoints.lean` | Functions that quantize tensors | `_autograd.py`, `_quantizer_impl.py`, `common.py`, `dynamic.py`, `function.py`, `static.py`, `tiled_tensor.py` |
| `Verif/Quant/Freeze.lean` | `freeze_parameters`: replacing parameters by their quantized values (C88) | `quantization/freeze.py` |
| `Verif/Quant/Grad.lean` | Gradients of the affine quantizer: the model of `quant_dequant_by_tile_grad_impl` | `_quantizer_impl.py` |
| `Verif/Quant/Random.lean` | Random quantized tensors | `common.py`, `random.py` |
| `Verif/Quant/Ste.lean` | Straight-through functions | `quantization/ste.py` |
| `Verif/Quantops/Generate.lean` | Generated operators | `fallback.py`, `generate.py`, `operator.py`, `symtypes.py` |
| `Verif/Quantops/OpTable.lean` |  | `optable.py` |
| `Verif/Quantops/Operator.lean` |  | `operator.py` |
| `Verif/Quantops/Spec.lean` | Operator specifications | `operator.py`, `optable.py`, `symtypes.py` |
| `Verif/Quantops/Symtypes.lean` |  | `symtypes.py` |
| `Verif/RangeSetting/Estimate.lean` |  | `common.py`, `forward_override.py`, `min_error.py`, `minmax.py`, `nn/quantizer.py` |
| `Verif/RangeSetting/MinError.lean` |  | `common.py`, `min_error.py` |
| `Verif/RangeSetting/MinMax.lean` |  | `minmax.py` |
| `Verif/Runtime/Attach.lean` | Attaching one override to many quantizers | `nn/quantizer.py`, `overrides.py` |
| `Verif/Runtime/CopyTensor.lean` | Copying and moving quantized tensors | `common.py`, `function.py`, `quantized_tensor.py` |
| `Verif/Runtime/Disable.lean` | Disabling and enabling quantization | `flags.py`, `forward_override.py`, `nn/quantizer.py`, `overrides.py` |
| `Verif/Runtime/Dispatcher.lean` | Kernel dispatch | `dispatcher.py` |
| `Verif/Runtime/Flags.lean` | Global flags | `flags.py` |
| `Verif/Runtime/Overrides.lean` | Quantizer overrides | `forward_override.py`, `quantizer.py` |
| `Verif/Runtime/Swap.lean` | Temporary replacements in orchestration | `graph_module.py`, `orchestration.py`, `registry.py` |
| `Verif/Runtime/TorchFunction.lean` | What happens when a torch function meets a quantized tensor | `_linear_quantized_ops.py`, `function.py`, `quantized_tensor.py` |
| `Verif/SaveLoad/Dedupe.lean` |  | `save_load.py` |
| `Verif/SaveLoad/RoundTrip.lean` |  | `save_load.py` |
| `Verif/SaveLoad/Serialize.lean` |  | `nn/quantizer.py`, `serialization.py` |
| `Verif/SaveLoad/State.lean` |  | `save_load.py` |
| `Verif/TensorOps/Model.lean` | Operations on affine quantized tensors: the model of `quantization/_linear_quantized_ops.py` | `_linear_quantized_ops.py`, `affine/function.py`, `quantization/affine/function.py`, `quantized_tensor.py` |
| `Verif/TensorOps/TopkProps.lean` | Top-k of a per-tensor quantized tensor (C67) | `quantization/_linear_quantized_ops.py`, `quantized_tensor.py` |
| `Verif/Testing/PackageMock.lean` | Mocked packages | `package_mock.py` |
| `Verif/Tiling/Model.lean` | Tiling: the model of `quantization/tiled_tensor.py` | `tiled_tensor.py` |
| `Verif/Tiling/QuantModel.lean` | Tiled affine quantization: the model of `quantize_by_tile_impl` and `dequantize_by_tile_impl` | `_quantizer_impl.py`, `quantization/_quantizer_impl.py` |
| `Verif/Util/Cache.lean` | Asset cache paths | `cache.py` |
| `Verif/Util/Chunks.lean` | Chunks of tokens, and limited iteration | `data.py` |
| `Verif/Util/LogFilter.lean` | Dropping repeated log messages | `logging_utils.py`, `nn/quantized_module.py` |
| `Verif/Util/Metrics.lean` | Measuring quantization errors | `metrics.py`, `testing/__init__.py` |

### Not modelled

* Floating-point rounding (all numeric code is over `ℚ`), CUDA/device behaviour, memory use, autograd's engine itself,
  and PyTorch, ONNX, libcst, mypy, safetensors and GGUF libraries beyond the primitives named in the definitions' comments.
* Threads and processes: the code has no locking, and every model is sequential.
* `_autoquant`: parsing and printing of Python source, the type provider (`mypy/`), the module builder and writer
  (`pybuilder/builder.py`, `writer.py`, `formatter.py`) and the CST passes (`cst/passes.py`), other than the scope analysis,
  the pattern rules, the import resolution and the naming of quantizers.
* `_gen/` and `_quantops/generate.py`: the generated operator wrappers and their generator.
* `nn/` layers other than quantizers and the conversion machinery in `nn/quantized_module.py` named above; `nn/functional/custom/sdpa.py`.
* `testing/`, `logging_utils.py`, `_version.py`, `common.py` helpers that are not cited above.
* `export/_io_capture.py`, `export/module_export.py`, the vocabulary and configuration readers of the GGUF exporter.

## 6. Axioms of each theorem

Output of `#print axioms` for every theorem named in MANIFEST.json, grouped by the axioms reported.

### no axioms

`FF.Attention.fallback_discarded`, `FF.Attention.fallback_same`, `FF.Bypass.result_recognised`, `FF.Collections.append_refuses_all`, `FF.Convert.contents_kept`, `FF.Convert.extra_first`, `FF.CopyTensor.deep_forgets_gradient`, `FF.Freeze.activation_quantizer_removed`, `FF.Freeze.frozen_after_exit`, `FF.Freeze.overrides_stay`, `FF.Freeze.second_parameter_unquantized`, `FF.Freeze.shared_quantizer_stays`, `FF.Generators.generator_itself`, `FF.GgufMeta.merges_of_tokenizer_partial`, `FF.Layers.layer_norm_has_idle_quantizer`, `FF.Markers.marks_not_printed`, `FF.Markers.traversal_keeps_marks`, `FF.Markers.traversal_same_partial`, `FF.Metadata.assigned_too_early`, `FF.Metadata.raises_after_assignment`, `FF.Metadata.shared_quantizer`, `FF.Overrides.second_continuation_call_skips_overrides`, `FF.Propagate.sibling_view_missed`, `FF.Tags.slash_above`, `FF.Upcast.mixed_types_fail`, `FF.Upcast.restores_too_early`

### propext

`FF.Annotate.requantization_keeps_last`, `FF.Assign.declaration_assigns_nothing`, `FF.Assign.joint_targets_nested`, `FF.Assign.loop_star_lost`, `FF.Assign.nested_star_lost`, `FF.Assign.single_target_misread`, `FF.Assign.starred_targets_nested`, `FF.Assign.starred_value_misread`, `FF.Assign.targets_from_target`, `FF.Attach.one_outcome`, `FF.Bypass.version_iff`, `FF.Cache.plain_names_distinct_partial`, `FF.Candidates.bypassed_marked`, `FF.Candidates.joined_sequences_missed`, `FF.Candidates.literals_not_marked`, `FF.Candidates.no_tensor_not_marked_operator`, `FF.Candidates.optional_tensor_missed`, `FF.Candidates.receiver_ignored`, `FF.Candidates.tensor_argument_missed`, `FF.Candidates.untyped_operator_marked`, `FF.Chunks.zero_announces_all`, `FF.Collections.append_bare`, `FF.Collections.append_refuses_others`, `FF.Collections.apply_other`, `FF.Collections.created`, `FF.Compr.condition_read_before_bound`, `FF.Compr.inner_namesake_read`, `FF.Compr.outer_namesake_quantized`, `FF.Compr.value_of_previous_element`, `FF.Contexts.contiguous_may_share`, `FF.Contexts.shared_parameters`, `FF.Convert.base_module_passes_check`, `FF.Convert.shared_module_refused`, `FF.Convert.skipped_module_checked`, `FF.CopyTensor.quantized_partial`, `FF.CreateFn.equal_defaults_replaced`, `FF.CreateFn.required_after_optional_refused`, `FF.Dataflow.record_keeps_status`, `FF.DeepCopy.containers_once`, `FF.DeepCopy.copy_complete_partial`, `FF.DeepCopy.nothing_shared`, `FF.DeepCopy.overrides_stay`, `FF.DeepCopy.quantizers_once`, `FF.Disable.enabled_quantizes`, `FF.Emit.both_written`, `FF.Emit.crash_loses_both`, `FF.Emit.existing_kept`, `FF.Emit.import_spec`, `FF.Emit.loaded_replaced`, `FF.Emit.mixin_fails`, `FF.Emit.others_kept`, `FF.Emit.written_partial`, `FF.Entry.block_size_is_not_number_of_blocks`, `FF.Files.empty_name`, `FF.Files.others_untouched`, `FF.Flags.only_plain_setters_last`, `FF.FoldTemps.chain_breaks`, `FF.Freeze.pass_without_overrides`, `FF.Fuse.disabled_differ`, `FF.Fuse.reshaped_spoilt`, `FF.Fuse.stub_keeps_weights`, `FF.Fuse.tied_quantized_twice`, `FF.Fuse.tied_unquantized`, `FF.Fuse.transposed_spoilt`, `FF.Gen.optional_string_unquoted`, `FF.Gen.other_default_quoted`, `FF.Gen.plain_result_fails`, `FF.GgufMeta.other_directory_used`, `FF.GptqIn.other_dimensions_refused`, `FF.GptqIn.single_image_refused`, `FF.Gran.granularity_eq_same_tiles_partial`, `FF.Gran.granularity_eq_unsound`, `FF.Gran.per_tensor_one_parameter`, `FF.HelperNames.call_renamed_twice`, `FF.HelperNames.class_derives_from_other_type`, `FF.HelperNames.imported_name_taken`, `FF.HelperNames.keyword_renamed`, `FF.HelperNames.local_hides_helper`, `FF.HelperNames.method_renamed`, `FF.HelperNames.parameter_renamed`, `FF.HelperNames.value_lacks_quantizers`, `FF.ImportSymbols.fallback_does_the_same`, `FF.Imports.absolute_unchanged`, `FF.Layers.activation_on_quantized_operands`, `FF.Layers.embedding_on_quantized_operands`, `FF.Layers.inplace_lost`, `FF.Layers.padding_mode_lost`, `FF.MPath.brace_shared_fragments_skipped`, `FF.MPath.brace_star_alternative_dropped`, `FF.MPath.brace_star_misses_parent`, `FF.MPath.different_roots_rejected`, `FF.MPath.second_name_not_found`, `FF.MPath.shared_module_counted_twice`, `FF.Markers.combined_comments_lost`, `FF.Markers.combined_statements`, `FF.Markers.flattened_keeps`, `FF.Markers.function_forgotten`, `FF.Markers.semicolon_ignored`, `FF.Markers.traversal_reaches_all`, `FF.Markers.unwrapped_comments_lost`, `FF.MetaCopy.nothing_foreign`, `FF.MetaCopy.rest_stays`, `FF.Metadata.held_for_good`, `FF.ModIO.nested_argument_fails`, `FF.OnnxNames.given_name_taken`, `FF.OnnxNames.returned_twice`, `FF.OpSpec.documented_example_refused`, `FF.OpSpec.sequence_not_quantized`, `FF.OpSpec.star_dropped`, `FF.OpTable.name_alias_redirected`, `FF.OpTags.parameter_operator_untagged`, `FF.OpTags.quantized_twice`, `FF.OpTags.residual_mistagged`, `FF.Orch.no_inputs_accepted`, `FF.Output.arguments_checked_last`, `FF.Output.first_failure`, `FF.Parens.comment_dropped`, `FF.Parens.grouping_kept`, `FF.Parens.line_break_exposed`, `FF.Parens.no_space_fails`, `FF.Parens.same_expression`, `FF.Parens.statement_succeeds_partial`, `FF.Parens.succeeds_partial`, `FF.Passes.class_is_instance`, `FF.Passes.metadata_pass_sees_code`, `FF.Passes.passes_in_order`, `FF.Passes.runs_compose`, `FF.PatMatch.captures_determined`, `FF.PatMatch.instance_applies`, `FF.PatMatch.parentheses_not_ignored`, `FF.PatMatch.place_kept_partial`, `FF.PatMatch.repeated_capture_matches_anything`, `FF.PatMatch.several_statements_left`, `FF.PatMatch.statement_in_expression`, `FF.PatMatch.value_of_result`, `FF.Pattern.contiguous_part_not_matched`, `FF.Pattern.scope_at_node`, `FF.PkgMock.inner_exit_unloads_outer`, `FF.Placement.docstring_stays_first`, `FF.Placement.keyword_only_not_quantized`, `FF.Placement.later_item_sees_unquantized`, `FF.Placement.tuple_item_not_quantized`, `FF.Py.in_place_lost`, `FF.Py.lambda_body_moved`, `FF.Py.message_evaluated`, `FF.Py.read_after_call`, `FF.Py.short_circuit_lost`, `FF.Py.target_before_value`, `FF.Py.target_evaluated_twice`, `FF.Py.temporary_clobbers`, `FF.QConfig.apply_without_update_never_calls`, `FF.QConfig.safe_update`, `FF.QConfig.shared_quantizer_replaced_once`, `FF.Qdq.block_tiling_accepted`, `FF.QueryCtx.given_context_used`, `FF.Registry.filter_left_behind`, `FF.Registry.filter_scoped_partial`, `FF.Registry.subclass_not_found`, `FF.Registry.two_bases`, `FF.Replace.unhashable_callee_fails`, `FF.Replace.unseen_name_not_replaced`, `FF.SaveFiles.expected_name`, `FF.SaveFiles.found_again_partial`, `FF.SaveFiles.other_model_refused`, `FF.SaveFiles.others_kept`, `FF.SaveFiles.own_name_accepted`, `FF.SaveFiles.own_save_refused`, `FF.SaveFiles.path_checked`, `FF.SaveFiles.places_differ`, `FF.SaveFiles.saved_under_path`, `FF.SaveFiles.torn_by_concurrency`, `FF.Ste.value_unchanged`, `FF.Strict.exception_leaks`, `FF.Swap.block_restores_its_entry`, `FF.Swap.override_applies_to_all_partials`, `FF.Symtypes.single_union_not_type`, `FF.Tiling.tiling_roundtrip_empty`, `FF.TorchFn.computed_on_values_partial`, `FF.TorchFn.cuda_goes_partial`, `FF.TorchFn.cuda_zero_is_current`, `FF.TorchFn.hidden_in_object`, `FF.TorchFn.is_nonzero_of_codes`, `FF.TorchFn.moved_whole`, `FF.TorchFn.no_copy_made`, `FF.TorchFn.strict_refuses`, `FF.Trace.argument_misbound`, `FF.Trace.returned_input_refused`, `FF.Upcast.result_type`, `FF.Upcast.scoped_partial`

### Quot.sound, propext

`FF.Allowzero.nonempty_same_partial`, `FF.Allowzero.only_reshape`, `FF.Allowzero.same_shape_partial`, `FF.Allowzero.shape_changes`, `FF.Assign.assignments_told_partial`, `FF.Assign.loop_targets_partial`, `FF.Assign.values_once`, `FF.Attach.copy_detaches_original`, `FF.Attach.overrides_right`, `FF.Attach.quantizes_iff`, `FF.Bypass.other_errors_fail`, `FF.Bypass.written_iff`, `FF.Cache.path_shape`, `FF.Candidates.no_tensor_not_marked`, `FF.Candidates.tensor_argument_marked_partial`, `FF.Candidates.tensor_operand_marked_partial`, `FF.Candidates.tensor_operand_marked_unary_partial`, `FF.Chunks.beyond_the_end`, `FF.Chunks.limited_partial`, `FF.Cleanup.cleanup_computes_same`, `FF.Cleanup.cleanup_fails_iff`, `FF.Cleanup.cleanup_keeps_inputs`, `FF.Cleanup.cleanup_keeps_modules`, `FF.Cleanup.cleanup_keeps_needed`, `FF.Cleanup.no_quantizers_left_partial`, `FF.Cleanup.quantizer_below_called_module_kept`, `FF.Cleanup.shared_quantizer_kept`, `FF.Collections.only_quantizers_partial`, `FF.Collections.selected_partial`, `FF.Compile.compilation_transparent`, `FF.Compile.compiled_once`, `FF.Compile.flag_restored`, `FF.Compile.position_not_converted`, `FF.Compr.condition_name_not_found`, `FF.Compr.element_name_found`, `FF.Compr.element_quantized_once_partial`, `FF.Compr.iterator_name_found`, `FF.Compr.one_temporary_partial`, `FF.Compr.single_use_quantized`, `FF.Compr.temporaries_differ_partial`, `FF.Contexts.adopted_exactly`, `FF.Contexts.contiguous_exactly`, `FF.Contexts.converted_exactly`, `FF.Contexts.derivations_change_nothing`, `FF.Convert.refused_untouched`, `FF.Convert.root_only`, `FF.Convert.surrogates_insufficient`, `FF.CopyTensor.all_contiguous`, `FF.CopyTensor.all_moved`, `FF.CopyTensor.clone_independent`, `FF.CopyTensor.deep_copy`, `FF.CopyTensor.detach_shares`, `FF.CopyTensor.real_in_export`, `FF.CopyTensor.same_value`, `FF.Dataflow.break_forgets`, `FF.Dataflow.conditional_assignment_in_loop_raises`, `FF.Dataflow.continue_forgets`, `FF.Dataflow.exhaustive_if_forgets`, `FF.Dataflow.loop_free_succeeds`, `FF.Dataflow.merge_branches`, `FF.Dataflow.merge_into_parent`, `FF.Dataflow.nested_break_recurses`, `FF.Dataflow.overwrite_parent`, `FF.Dataflow.try_forgets`, `FF.Dataflow.unconditional_break_forgets`, `FF.Dedup.argument_reassigned`, `FF.Dedup.inner_call_repeated`, `FF.Dedup.loop_condition_frozen`, `FF.Dedup.outer_temporary_lost`, `FF.DeepCopy.hook_refers_elsewhere`, `FF.DeviceStrip.rest_stays`, `FF.DeviceStrip.runs_anywhere_partial`, `FF.DeviceStrip.same_where_traced`, `FF.Disable.disabled_returns_input`, `FF.Dispatch.duplicate_registration_wrong_removal`, `FF.Emit.generated_exactly_partial`, `FF.Emit.quantized_again`, `FF.Emit.repeatable`, `FF.Estimate.setup_failure_leaks`, `FF.Files.files_kept_partial`, `FF.Files.model_overwritten`, `FF.Files.split_weights_overwritten`, `FF.Flags.block_restores_its_flag`, `FF.Flags.flags_are_scoped`, `FF.FoldTemps.reassigned_variable`, `FF.Freeze.results_kept_partial`, `FF.Gen.nested_not_dequantized`, `FF.Generators.builtin_names`, `FF.Generators.manager_used_partial`, `FF.Generators.name_last_registered`, `FF.Generators.registered_name_hides_manager`, `FF.Generators.second_manager_ignored`, `FF.Generators.unknown_name`, `FF.Gguf.rope_index_defined_iff`, `FF.Gguf.rope_index_position`, `FF.GgufFile.file_has_only_parameters`, `FF.GgufFile.float_projection_misread`, `FF.GgufFile.same_name_lost`, `FF.GgufFile.single_layer_not_quantized`, `FF.GgufMeta.base_guessed`, `FF.GgufMeta.dimensions_written`, `FF.GgufMeta.head_dim_ignored`, `FF.GgufMeta.head_dim_partial`, `FF.GgufMeta.ids_read_back_partial`, `FF.GgufMeta.later_token_wins`, `FF.GgufMeta.padding_takes_token`, `FF.GgufMeta.scaling_as_configured_partial`, `FF.GgufMeta.token_at_its_id_partial`, `FF.GgufMeta.tokens_beyond_size_dropped`, `FF.GgufMeta.unknown_scaling_read_as_linear`, `FF.GgufMeta.unused_iff_free`, `FF.Gran.per_block_accepts_iff`, `FF.Gran.per_block_created_iff`, `FF.Gran.per_block_tile`, `FF.Gran.per_channel_tile`, `FF.ImportSymbols.import_written_iff_valid`, `FF.ImportSymbols.imports_are_used`, `FF.Imports.beyond_top_level_accepted`, `FF.Imports.package_resolved_in_parent`, `FF.Imports.resolves_like_python_partial`, `FF.Insertions.unchanged`, `FF.Layers.converted_model_computes_the_same_partial`, `FF.Lazy.all_initialized_while_tracing_partial`, `FF.Lazy.buffer_enters_state`, `FF.Lazy.initialized_untouched_partial`, `FF.Lazy.lazy_gets_saved_value`, `FF.Lazy.lazy_without_entry_stays`, `FF.Lazy.offset_without_value_unreported`, `FF.Lazy.other_entries_ignored`, `FF.Lazy.outcome_passed_on`, `FF.Lazy.parameters_restored_partial`, `FF.Lazy.transient_kept_partial`, `FF.Lazy.uninitialized_reported`, `FF.Lazy.value_replaced_if_shape_fits`, `FF.Listing.all_names`, `FF.Listing.dedup_counts`, `FF.Listing.dedup_patterns`, `FF.Listing.direct_children_partial`, `FF.Listing.each_once`, `FF.Listing.prefix_put_partial`, `FF.Listing.second_name_missing`, `FF.Listing.summary_spec`, `FF.Listing.trailing_dot`, `FF.LogFilter.arguments_ignored`, `FF.LogFilter.logged_iff`, `FF.LogFilter.no_repetitions_partial`, `FF.MParse.parse_accepts_grammar`, `FF.MParse.quoted_is_one_token`, `FF.MPath.brace_star_diverges`, `FF.MPath.set_operations_partial`, `FF.Markers.traversal_keeps_code`, `FF.Markers.unwrapped_iff`, `FF.MetaCopy.metadata_saved_partial`, `FF.MetaCopy.same_name_mixed`, `FF.MetaCopy.saved_twice`, `FF.MetaCopy.unnamed_lost`, `FF.Metadata.assigned_quantizer`, `FF.Metadata.consistent_partial`, `FF.Metadata.extension_denied_partial`, `FF.Metadata.extension_recognized`, `FF.Metadata.warned_iff`, `FF.MinMax.running_independent_of_batching`, `FF.MinMax.running_range_exact`, `FF.MinMax.running_refuses_infinite`, `FF.MinMax.smoothed_from_range`, `FF.MinMax.smoothed_is_moving_average`, `FF.ModIO.encodings_completed_partial`, `FF.ModIO.listens_iff`, `FF.ModIO.modules_independent_partial`, `FF.ModIO.nested_keyword_lost`, `FF.ModIO.reattach_fails`, `FF.ModIO.records_last_call`, `FF.OnnxMeta.every_item_annotated`, `FF.OnnxMeta.inner_nodes_get_output_spec`, `FF.OnnxMeta.only_specs_of_mentioned`, `FF.OnnxMeta.spec_of_closest_ancestor`, `FF.OnnxMeta.spec_of_namesake`, `FF.OnnxMeta.spec_of_own_node`, `FF.OnnxMeta.spec_of_parameter`, `FF.OnnxMeta.unquantized_unchanged`, `FF.OnnxNames.alter_changes_meaning`, `FF.OnnxNames.altered_input_taken`, `FF.OnnxNames.passed_through_input`, `FF.OpTable.callable_owner_permanent`, `FF.OpTable.second_fallback_name_unknown`, `FF.OpTags.real_quantizers_untagged`, `FF.OpTags.tags_exact_partial`, `FF.OpTags.tags_sound`, `FF.Operator.positional_only_bound_last`, `FF.Orch.added_outputs`, `FF.Orch.ancestors_strict_needs_stop`, `FF.Orch.argument_without_input`, `FF.Orch.batches_independent_partial`, `FF.Orch.bind_accepts_iff`, `FF.Orch.call_batches`, `FF.Orch.call_passes_on`, `FF.Orch.call_per_input_partial`, `FF.Orch.calls_independent`, `FF.Orch.const_attribute_diverges`, `FF.Orch.dead_nested_attribute_keyError`, `FF.Orch.delegates_dropped`, `FF.Orch.denotation_unique`, `FF.Orch.first_module_left_behind`, `FF.Orch.iterable_argument_split`, `FF.Orch.late_output_ignored`, `FF.Orch.mixed_batches_differ`, `FF.Orch.modules_not_restored`, `FF.Orch.name_clash_captures`, `FF.Orch.named_tuple_by_position`, `FF.Orch.no_contexts_fails`, `FF.Orch.optimization_only_minimal`, `FF.Orch.optimization_only_unchanged`, `FF.Orch.part_extracted_again_not_moved`, `FF.Orch.part_name_captures`, `FF.Orch.parts_overwrite_each_other`, `FF.Orch.parts_share_input`, `FF.Orch.position_or_keyword_partial`, `FF.Orch.surplus_values_ignored`, `FF.Output.failure_changes_nothing_partial`, `FF.Overrides.removed_override_has_no_effect`, `FF.Parens.broken_kept`, `FF.Parens.line_breaks_inside_partial`, `FF.Passes.failed_pass_named`, `FF.Passes.interrupt_comes_through`, `FF.Passes.kind_kept`, `FF.Passes.metadata_pass_partial`, `FF.Passes.not_a_pass_refused`, `FF.Passes.plain_pass`, `FF.Passes.statement_before_replaces`, `FF.Passes.statements_after_dropped`, `FF.Passes.unchanged_code_copied`, `FF.Passes.visitors_change_nothing`, `FF.PatMatch.applies_iff_instance_partial`, `FF.PatMatch.grouping_kept_partial`, `FF.PatMatch.operand_taken_away`, `FF.PatMatch.replaced_by_instance_partial`, `FF.PatMatch.unknown_capture_refused`, `FF.Pattern.growing_rule_diverges`, `FF.Pattern.kept_rules_apply`, `FF.Pattern.prefilter_keeps`, `FF.Pattern.rules_applied_exhaustively`, `FF.Pattern.scope_matches_iff`, `FF.Pipeline.build_order`, `FF.Pipeline.inserted_after_runs_later`, `FF.Pipeline.inserted_before_runs_after`, `FF.Pipeline.run_calls`, `FF.Pipeline.run_fails_only_in_stages`, `FF.PkgMock.meta_path_restored_partial`, `FF.PkgMock.reentry_leaks`, `FF.Placement.call_acts_at_binding_partial`, `FF.Placement.placed_acts_at_binding_partial`, `FF.Placement.unannotated_unchanged`, `FF.Propagate.annotations_kept`, `FF.Propagate.propagation_terminates`, `FF.Propagate.spreads_along_views_only`, `FF.Propagate.spreads_to_viewed`, `FF.Py.candidates_isolated`, `FF.Py.candidates_kept`, `FF.QConfig.apply_replaces`, `FF.QConfig.collection_initialize`, `FF.QConfig.initialize_best_rule`, `FF.QConfig.initialize_refuses`, `FF.QConfig.last_rule_wins`, `FF.QConfig.winner_unique`, `FF.Qdq.lowerings_merged`, `FF.QueryCtx.aliases_in_order`, `FF.QueryCtx.class_is_value_partial`, `FF.QueryCtx.empty_context_ignored`, `FF.QueryCtx.extensions_restored_partial`, `FF.QueryCtx.local_context_values`, `FF.QueryCtx.replaced_extension_lost`, `FF.QueryCtx.rule_ignores_author`, `FF.QueryCtx.space_not_ignored`, `FF.QueryCtx.unused_variable_not_seen`, `FF.Registry.filter_admits`, `FF.Registry.override_restores`, `FF.Registry.register_accepts`, `FF.Registry.requested_refuses`, `FF.Registry.resolve_explicit`, `FF.Registry.resolve_refuses`, `FF.Replace.operations_marked`, `FF.SaveFiles.interrupted_model_refused`, `FF.SaveFiles.weights_complete`, `FF.SaveLoad.shared_tensors_survive_partial`, `FF.Serialize.inherited_constructor_not_loadable`, `FF.Serialize.load_gives_equal_object`, `FF.Serialize.load_rebuilds_partial`, `FF.Serialize.records_new_arguments`, `FF.Serialize.records_outermost_arguments`, `FF.Source.answers_stay`, `FF.Source.found_by_alias`, `FF.Source.last_branch_found`, `FF.Source.module_hides_member`, `FF.Source.swapped_names_not_found`, `FF.Source.unnamed_capture_fails`, `FF.Ste.further_arguments_not_learned`, `FF.Ste.shape_refused`, `FF.Ste.straight_same_value`, `FF.Strict.module_strictness_scoped_partial`, `FF.Strict.reentry_leaks`, `FF.Strict.two_handles_leak`, `FF.Super.attribute_not_anchored`, `FF.Super.class_method_not_anchored`, `FF.Super.quantized_class_order`, `FF.Super.super_calls_keep_their_methods_partial`, `FF.Super.wrong_class_of_name`, `FF.Swap.swaps_are_scoped`, `FF.Symtypes.equal_variants_kept`, `FF.Symtypes.eqv_iff_eq_partial`, `FF.Symtypes.eqv_not_symmetric`, `FF.Symtypes.eqv_trans`, `FF.Symtypes.mem_union_iff`, `FF.Symtypes.membership_lost_in_union`, `FF.Symtypes.union_eq_of_same_variants`, `FF.Symtypes.union_flattens`, `FF.Symtypes.union_idempotent`, `FF.Symtypes.union_order_insensitive`, `FF.Symtypes.unwrap_optional_single`, `FF.Symtypes.unwrap_optional_union`, `FF.Tags.fromRaw_reads`, `FF.Thread.never_ends`, `FF.Thread.recursion_not_passed`, `FF.Thread.shared_method_left_out`, `FF.TorchFn.attributes_as_of_values_partial`, `FF.TorchFn.kernel_sees_codes`, `FF.Trace.stale_trace`, `FF.Trace.traced_once`, `FF.Warnings.inside_statement`, `FF.Warnings.lines_then_warnings`, `FF.Warnings.old_lines_kept`, `FF.Warnings.removed_with_node`, `FF.Warnings.top_statement_loses_warnings`, `FF.Worklist.aliased_forward_hides_helpers`, `FF.Worklist.class_method_of_other_class_not_converted`, `FF.Worklist.function_of_plain_class_not_converted`, `FF.Worklist.helper_not_converted_as_method`, `FF.Worklist.inherited_method_not_converted`, `FF.Worklist.reexported_helper_hides_helpers`, `FF.Worklist.types_chosen_once`, `FF.Worklist.unhashable_object_stops_search`, `FF.Worklist.unmarked_call_not_followed`, `FF.Worklist.unreadable_object_stops_search`

### Classical.choice, Quot.sound, propext

`FF.Allowzero.accepted_becomes_refused`, `FF.Allowzero.bodies_stay`, `FF.Allowzero.refused_becomes_accepted`, `FF.Annotate.annotate_removes`, `FF.Annotate.annotate_spec`, `FF.Attention.causal_partial`, `FF.Attention.finite_neg_inf_leaks`, `FF.Attention.finite_neg_inf_row`, `FF.Attention.is_attention`, `FF.Attention.mask_quantizer_leaks`, `FF.Attention.masked_irrelevant_partial`, `FF.Attention.negative_scale_refused`, `FF.Attention.no_heads`, `FF.Attention.refused`, `FF.Attention.within_values`, `FF.Bypass.resolved_iff`, `FF.Bypass.untouched_iff_partial`, `FF.Cache.directory_precedence`, `FF.Cache.parent_escapes`, `FF.Cache.paths_collide`, `FF.Candidates.untyped_call_marked`, `FF.Chunks.every_token_partial`, `FF.Chunks.labels`, `FF.Chunks.uneven_columns`, `FF.Compr.temporary_of_inner_read`, `FF.Contexts.assigned_exactly`, `FF.Contexts.assignments_local_partial`, `FF.Contexts.changed_exactly`, `FF.Convert.latest_class`, `FF.Convert.model_converted_partial`, `FF.Convert.second_conversion`, `FF.Convert.surrogates_suffice_partial`, `FF.CopyTensor.contiguous_never_self`, `FF.CreateFn.accepted_iff`, `FF.CreateFn.calls_both`, `FF.CreateFn.created_iff`, `FF.CreateFn.data_parameter_unusable`, `FF.CreateFn.with_changes_reaches_dequantize`, `FF.Dataflow.quantized_uses_annotated_partial`, `FF.Dedup.dedup_keeps_partial`, `FF.Dedup.no_repeats_partial`, `FF.DeepCopy.copy_ends`, `FF.DeviceStrip.created_on_default`, `FF.DeviceStrip.device_alone_stays`, `FF.DeviceStrip.positional_stays`, `FF.Disable.quantization_switches_are_scoped`, `FF.Disable.switches_leave_nothing`, `FF.Dispatch.dispatch_most_recent_best_partial`, `FF.Dispatch.ended_registration_has_no_effect_partial`, `FF.Dispatch.nested_blocks_restore`, `FF.Emit.dotted_name`, `FF.Emit.doubled_suffix`, `FF.Emit.module_found_partial`, `FF.Emit.second_time_empty`, `FF.Enc.asymmetric_blocks_refused`, `FF.Enc.block_zero_point_shifted`, `FF.Enc.cleared_is_new`, `FF.Enc.earlier_result_overwritten`, `FF.Enc.extract_covers`, `FF.Enc.extract_first_wins`, `FF.Enc.extract_fresh`, `FF.Enc.failed_add_changes_nothing`, `FF.Enc.first_encoding_wins`, `FF.Enc.legacy_describes`, `FF.Enc.metadata_roundtrip`, `FF.Enc.mixed_offsets_lose_zero_point`, `FF.Enc.mixed_offsets_marked_symmetric`, `FF.Enc.quantizer_without_offset_fails`, `FF.Enc.v1_describes`, `FF.Enc.v1_kind`, `FF.Enc.v1_symmetric_flag_partial`, `FF.Enc.v2_describes_partial`, `FF.Entry.block_entry_point`, `FF.Entry.dynamic_granularity_entry_point`, `FF.Entry.dynamic_is_static`, `FF.Entry.dynamic_parameters`, `FF.Entry.export_dequantizes_to_integers`, `FF.Entry.export_ignores_dequantize_dtype`, `FF.Entry.export_value_partial`, `FF.Entry.granularity_entry_point`, `FF.Entry.integers_dequantized_to_integers`, `FF.Entry.quantized_value`, `FF.Entry.traced_dtype_wrong`, `FF.Estimate.estimation_restores_overrides_partial`, `FF.Estimate.estimator_outermost`, `FF.Estimate.no_estimator_left_partial`, `FF.Estimate.other_overrides_kept`, `FF.ExportRequest.default_targets`, `FF.ExportRequest.export_always_fuses`, `FF.ExportRequest.export_arguments_reach_stages`, `FF.ExportRequest.export_cannot_gguf`, `FF.ExportRequest.export_runs_pipeline`, `FF.ExportRequest.gguf_export_follows_diagram`, `FF.ExportRequest.onnx_export_follows_diagram`, `FF.ExportRequest.option_overrides_directory`, `FF.ExportRequest.qdq_export_follows_diagram`, `FF.ExportRequest.refused_export_makes_directory`, `FF.ExportRequest.registration_refused_iff`, `FF.ExportRequest.registry_finds`, `FF.ExportRequest.stages_get_options`, `FF.ExportRequest.unknown_target_fails`, `FF.Files.own_files_partial`, `FF.FilterNodes.breadth_first`, `FF.FilterNodes.finds_exactly`, `FF.FilterNodes.left_to_right`, `FF.FilterNodes.search_ends`, `FF.FoldTemps.fold_keeps_result_partial`, `FF.FoldTemps.folded_exactly`, `FF.FoldTemps.other_code_unchanged`, `FF.FoldTemps.returned_temporary`, `FF.Freeze.others_untouched`, `FF.Freeze.parameter_frozen_partial`, `FF.Fuse.quantizers_stubbed`, `FF.Fuse.refused_iff`, `FF.Fuse.results_kept_partial`, `FF.Fuse.weights_fused_partial`, `FF.Gen.default_kept_partial`, `FF.Gen.fallback_computes_partial`, `FF.Gen.operator_computes_partial`, `FF.Gguf.decodes_near`, `FF.Gguf.one_sided_decodes_wrong`, `FF.Gguf.q4_0_decodes`, `FF.Gguf.q8_0_decodes_partial`, `FF.Gguf.q8_0_lowest_code_lost`, `FF.Gguf.query_projection_exported`, `FF.Gguf.rope_index_perm`, `FF.Gguf.rows_keep_scales`, `FF.Gguf.tiny_scale_vanishes`, `FF.Gguf.validate_iff`, `FF.GgufFile.file_has_every_parameter_partial`, `FF.GgufFile.file_written`, `FF.GgufFile.shared_parameter_lost`, `FF.GgufFile.untied_output_lost`, `FF.Gptq.block_size_irrelevant_partial`, `FF.Gptq.block_sizes_agree_partial`, `FF.Gptq.gptq_solves`, `FF.Gptq.group_parameters`, `FF.Gptq.requantizing_changes_nothing`, `FF.Gptq.stale_group_weights`, `FF.GptqCol.column_quantizer_eq_full`, `FF.GptqCol.negative_channel_refused`, `FF.GptqCol.other_granularities_refused`, `FF.GptqCol.partial_range_local`, `FF.GptqIn.accepted_partial`, `FF.GptqIn.conv_columns_partial`, `FF.GptqIn.conv_error_partial`, `FF.GptqIn.groups_refused`, `FF.GptqIn.linear_columns`, `FF.GptqIn.linear_error`, `FF.GptqIn.places_iff`, `FF.Gran.granularity_from_sizes_non_dividing`, `FF.Gran.granularity_from_sizes_roundtrip`, `FF.Gran.granularity_tile_divides`, `FF.Gran.per_block_shares_iff`, `FF.Gran.per_channel_from_end`, `FF.Gran.per_channel_param_number`, `FF.Gran.per_channel_shares_iff`, `FF.HelperNames.class_bases_partial`, `FF.HelperNames.class_names_distinct`, `FF.HelperNames.class_names_plain`, `FF.HelperNames.free_name_found`, `FF.HelperNames.helper_names_distinct`, `FF.HelperNames.helper_names_plain`, `FF.HelperNames.names_replaced`, `FF.HelperNames.references_follow_partial`, `FF.Hessian.activations_kept_partial`, `FF.Hessian.activations_overwritten`, `FF.Hessian.batching_irrelevant`, `FF.Hessian.dampened_positive_definite`, `FF.Hessian.empty_first_batch_fails`, `FF.Hessian.hessian_value`, `FF.Hoist.elif_test_without_variable`, `FF.Hoist.elif_without_variable`, `FF.Hoist.evaluated_before_loop`, `FF.Hoist.evaluated_without_need`, `FF.Hoist.hoisting_keeps_results_partial`, `FF.Hoist.same_variable`, `FF.Hoist.stale_value`, `FF.Hoist.symbols_spelled_out_partial`, `FF.Hoist.variable_is_identifier_partial`, `FF.Hoist.variable_overwritten`, `FF.Hoist.variables_confused`, `FF.ImportSymbols.attribute_named_like_global`, `FF.ImportSymbols.closure_variable_fails`, `FF.ImportSymbols.conditional_import_fails`, `FF.ImportSymbols.default_named_like_parameter`, `FF.ImportSymbols.global_named_like_builtin`, `FF.ImportSymbols.global_named_like_method`, `FF.ImportSymbols.globals_keep_values_partial`, `FF.ImportSymbols.name_in_target_not_imported`, `FF.ImportSymbols.part_of_dotted_import`, `FF.ImportSymbols.rebound_import_kept`, `FF.ImportSymbols.same_name_in_two_modules`, `FF.ImportSymbols.star_import_lost`, `FF.Insertions.placed`, `FF.Layers.conv_on_quantized_operands`, `FF.Layers.layer_norm_on_quantized_operands`, `FF.Layers.linear_on_quantized_operands`, `FF.Lazy.order_changed`, `FF.Lazy.second_name_left`, `FF.LinQ.failed_first_set`, `FF.LinQ.failed_set_changes_nothing`, `FF.LinQ.first_set_accepted_iff`, `FF.LinQ.half_step_after_history_partial`, `FF.LinQ.operator_ignores_history`, `FF.LinQ.operator_is_quantizer`, `FF.LinQ.range_after_history_partial`, `FF.LinQ.tried_but_not_set`, `FF.LinQ.wrong_size_sticks`, `FF.Listing.shared_saved_once`, `FF.Listing.state_saved`, `FF.LogFilter.nothing_lost_partial`, `FF.LogFilter.second_class_not_reported`, `FF.Lpbq.construct_iff`, `FF.Lpbq.lpbq_rest`, `FF.Lpbq.lpbq_scales`, `FF.MParse.parse_alias`, `FF.MParse.parse_print`, `FF.MPath.alternatives_are_union_partial`, `FF.MPath.search_exact`, `FF.MPath.search_exact_cyclic`, `FF.Markers.refused_iff`, `FF.Markers.wrapped_code`, `FF.Metadata.missing_attribute_raises`, `FF.Metrics.exact_copy_of_small`, `FF.Metrics.exact_is_best`, `FF.Metrics.exact_sample_hides`, `FF.Metrics.less_noise`, `FF.Metrics.negative_missed`, `FF.Metrics.refused_iff`, `FF.Metrics.ties_found_partial`, `FF.MinError.grid_search_minimal_partial`, `FF.MinError.unevaluated_candidate_chosen`, `FF.MinError.uniform_grid_candidates`, `FF.MinError.uniform_grid_candidates_asymmetric`, `FF.MinError.uniform_grid_covers`, `FF.MinError.uniform_grid_size`, `FF.MinError.uniform_grid_too_large`, `FF.MinError.uniform_search_minimal_partial`, `FF.MinError.update_policy_followed`, `FF.MinMax.smoothed_in_hull`, `FF.ModIO.failed_run_leaves_hooks`, `FF.ModIO.hooks_removed_partial`, `FF.ModIO.none_result_shifts`, `FF.ModIO.other_argument_shifts`, `FF.Names.name_has_prefix`, `FF.Names.names_distinct_partial`, `FF.Names.numbered_name_clashes`, `FF.Names.prefixed_name_clashes`, `FF.Names.same_base_name_distinct`, `FF.Naming.extra_names_mapped`, `FF.Naming.layer_names_mapped`, `FF.Naming.name_map_injective_partial`, `FF.Naming.only_known_names_mapped`, `FF.Naming.trailing_newline_collides`, `FF.OnnxMeta.all_results_get_spec`, `FF.OnnxMeta.decomposed_gets_output_spec`, `FF.OnnxMeta.encoding_of_node_output_partial`, `FF.OnnxNames.alter_keeps_partial`, `FF.OnnxNames.altered_name_taken`, `FF.OnnxNames.renameIO_keeps_partial`, `FF.OnnxNames.renameIO_refused`, `FF.OpSpec.annotation_accepted_iff`, `FF.OpSpec.annotation_means`, `FF.OpSpec.file_read_iff_partial`, `FF.OpSpec.missing_fallback_aborts`, `FF.OpSpec.missing_key_aborts`, `FF.OpSpec.operator_as_specified_partial`, `FF.OpSpec.single_alias_ignored`, `FF.OpSpec.spec_accepted_iff`, `FF.OpSpec.table_as_specified`, `FF.OpSpec.wrong_entries_refused`, `FF.OpTable.added_operator_first`, `FF.OpTable.alias_collision_refused`, `FF.OpTable.failed_add_takes_effect`, `FF.OpTable.found_by_fallback_name`, `FF.OpTable.lookup_never_guesses`, `FF.OpTable.lookup_newest_first`, `FF.Operator.bind_partial_spec`, `FF.Operator.validate_iff_accepts`, `FF.Orch.ancestors_all`, `FF.Orch.ancestors_closure`, `FF.Orch.ancestors_strict`, `FF.Orch.attribute_part_lost`, `FF.Orch.batches_complete_partial`, `FF.Orch.bind_flows_deterministic`, `FF.Orch.bind_flows_plans_partial`, `FF.Orch.bind_flows_refuses`, `FF.Orch.bind_once`, `FF.Orch.broadcast_error_iff`, `FF.Orch.broadcast_ok_iff`, `FF.Orch.call_answers_partial`, `FF.Orch.call_succeeds_partial`, `FF.Orch.contexts_exact`, `FF.Orch.delegate_on_another_call`, `FF.Orch.extracted_interface`, `FF.Orch.extracted_values_partial`, `FF.Orch.extraction_succeeds`, `FF.Orch.failed_inlining_leaves_fold`, `FF.Orch.find_cycle_none_iff`, `FF.Orch.find_cycle_sound`, `FF.Orch.fold_placed_too_late`, `FF.Orch.fold_tuple`, `FF.Orch.groups_are_siblings`, `FF.Orch.inlined_outputs_partial`, `FF.Orch.inlined_run_partial`, `FF.Orch.inlined_structure`, `FF.Orch.inlining_accepted_iff`, `FF.Orch.inlining_keeps_old_values`, `FF.Orch.insert_moves_same_results_partial`, `FF.Orch.lifetime_pass_frees`, `FF.Orch.lifetime_pass_same_result`, `FF.Orch.merge_spec`, `FF.Orch.nested_regions_computed_twice`, `FF.Orch.node_replaces_input`, `FF.Orch.offload_only_adds_moves`, `FF.Orch.offload_same_results_partial`, `FF.Orch.optimization_only_follows_partial`, `FF.Orch.optimization_only_same_calls_partial`, `FF.Orch.optimization_only_same_modules_partial`, `FF.Orch.optimize_offloaded_partial`, `FF.Orch.output_of_fold_fails`, `FF.Orch.prepare_register_spec`, `FF.Orch.reduced_delegates_partial`, `FF.Orch.reduced_part_of_output`, `FF.Orch.reduced_part_of_part`, `FF.Orch.reduced_pieces_partial`, `FF.Orch.reduced_values_partial`, `FF.Orch.run_completes`, `FF.Orch.run_never_misses_an_activation`, `FF.Orch.runs_batch_by_batch_partial`, `FF.Orch.scheduled_run_denotes`, `FF.Orch.siblings_accepted_iff`, `FF.Orch.topological_sort_closure`, `FF.Orch.topological_sort_complete`, `FF.Orch.topological_sort_iff_acyclic`, `FF.Orch.topological_sort_valid`, `FF.Output.formatted_iff`, `FF.Output.meaning_kept`, `FF.Output.same_code`, `FF.Output.succeeds_iff`, `FF.Output.written_then_refused`, `FF.Overrides.overrides_wrap_partial`, `FF.Parens.keyword_separated`, `FF.Parens.not_without_space_fails`, `FF.Parens.redundant_removed`, `FF.Parens.words_separated`, `FF.Passes.narrowed_kind_binding`, `FF.Pattern.out_of_scope_unchanged`, `FF.Pattern.rewriting_terminates_partial`, `FF.Pipeline.add_dependency_refused_iff`, `FF.Pipeline.add_dependency_spec`, `FF.Pipeline.build_fails_iff`, `FF.Pipeline.build_target_order`, `FF.Pipeline.edits_keep_buildable`, `FF.Pipeline.inserted_after_takes_over`, `FF.Pipeline.inserted_before_runs_immediately_before`, `FF.Pipeline.remove_dependency_spec`, `FF.Pipeline.replaced_at_same_position_partial`, `FF.Pipeline.replaced_input_moves`, `FF.PkgMock.loaded_module_wins`, `FF.PkgMock.nothing_left_partial`, `FF.PkgMock.other_imports_as_without`, `FF.PkgMock.others_untouched`, `FF.PkgMock.real_package_hidden`, `FF.PkgMock.registered_names_mocked_partial`, `FF.PkgMock.registering`, `FF.PkgMock.usable_again`, `FF.Propagate.propagation_exact_partial`, `FF.Propagate.spreads_to_views`, `FF.Py.candidates_iff`, `FF.Py.preprocess_keeps_partial`, `FF.Py.preprocess_raises_partial`, `FF.Py.temporaries_once`, `FF.QConfig.initialize_by_queries`, `FF.Qdq.codes_close`, `FF.Qdq.dequantize_exact_partial`, `FF.Qdq.fractional_bits_truncated`, `FF.Qdq.lowering_accepts_iff`, `FF.Qdq.odd_offset_tie_differs`, `FF.Qdq.quantize_exact_partial`, `FF.Qdq.same_error`, `FF.Qdq.same_parameter`, `FF.Qdq.zero_point_out_of_range`, `FF.Quant.asym_range_covers`, `FF.Quant.asym_range_roundtrip`, `FF.Quant.dequantize_lt_iff`, `FF.Quant.dequantize_lt_iff_neg`, `FF.Quant.dynamic_empty_rejected`, `FF.Quant.dynamic_half_step`, `FF.Quant.float_dtype_accepts_iff_partial`, `FF.Quant.grad_input_is_slope`, `FF.Quant.grad_offset_is_slope`, `FF.Quant.grad_row_is_total_slope`, `FF.Quant.grad_scale_is_slope`, `FF.Quant.int_dtype_accepts_too_much`, `FF.Quant.int_dtype_represents_partial`, `FF.Quant.qdq_error_le_half_step`, `FF.Quant.qdq_idempotent`, `FF.Quant.qdq_saturates_above`, `FF.Quant.qdq_saturates_below`, `FF.Quant.quantize_code_in_range`, `FF.Quant.quantize_dequantize`, `FF.Quant.quantize_fails_iff`, `FF.Quant.quantize_monotone`, `FF.Quant.quantize_nearest`, `FF.Quant.surrogate_eq_value`, `FF.Quant.sym_all_zero_unusable`, `FF.Quant.sym_one_bit_not_finite`, `FF.Quant.sym_one_sided_covers`, `FF.Quant.sym_range_covers_partial`, `FF.Random.accepted_iff_partial`, `FF.Random.codes_meant`, `FF.Random.single_offset_refused`, `FF.Registry.base_replaced`, `FF.Registry.bound_arguments_dropped`, `FF.Registry.conversion_sound`, `FF.Registry.found_iff`, `FF.Registry.latest_implementation_partial`, `FF.Registry.others_unchanged`, `FF.Registry.requested_specs`, `FF.Registry.requested_targets_partial`, `FF.Registry.resolve_last_registration`, `FF.Replace.method_without_self`, `FF.Replace.name_taken_for_alias`, `FF.Replace.numbers_added_by_torch`, `FF.Replace.operator_chosen_partial`, `FF.Replace.overridden_attribute_ignored`, `FF.Replace.parameter_taken_for_global`, `FF.Replace.python_operator_chosen`, `FF.Replace.quantizers_used_once`, `FF.Replace.replacement_keeps_value_partial`, `FF.Replace.result_of_call_taken_for_function`, `FF.Replace.starred_arguments_miscounted`, `FF.SaveFiles.incomplete_state_loaded`, `FF.SaveFiles.interrupted_state_partial`, `FF.SaveFiles.saved_model_loaded_partial`, `FF.SaveFiles.saved_state_loaded_partial`, `FF.SaveFiles.torn_by_crash`, `FF.SaveLoad.half_loaded`, `FF.SaveLoad.load_mismatch_refused`, `FF.SaveLoad.load_model_checked_partial`, `FF.SaveLoad.load_replaces_only_quantizers`, `FF.SaveLoad.name_with_comma_not_loadable`, `FF.SaveLoad.quantizer_without_parameters_not_loadable`, `FF.SaveLoad.save_load_round_trip_partial`, `FF.SaveLoad.shared_layer_not_loadable`, `FF.SaveLoad.stored_once`, `FF.SaveLoad.view_with_other_type_lost`, `FF.SaveLoad.weights_mismatch_after_attach`, `FF.Serialize.new_arguments_overwritten`, `FF.Source.copied_name_followed`, `FF.Source.found_by_own_name`, `FF.Source.source_of_object_partial`, `FF.Ste.gradient_straight_through`, `FF.Super.source_has_function`, `FF.Super.source_of_definer`, `FF.TOps.cat_faithful_partial`, `FF.TOps.cat_mixed_offsets_unfaithful`, `FF.TOps.ellipsis_full_slices`, `FF.TOps.getitem_per_channel_value`, `FF.TOps.per_tensor_move_value`, `FF.TOps.scalar_multiply_applies_iff`, `FF.TOps.scalar_multiply_value`, `FF.TOps.topk_negative_scale`, `FF.TOps.topk_value_partial`, `FF.TOps.unsqueeze_per_channel_partial`, `FF.TOps.unsqueeze_per_tile`, `FF.TOps.unsqueeze_wrong_axis`, `FF.Tags.contains_iff_above`, `FF.Tags.kind_tags`, `FF.Tags.tag_query_iff`, `FF.Tags.tags_interned`, `FF.Thread.calls_complete_partial`, `FF.Thread.own_quantizers_partial`, `FF.Thread.quantizer_not_passed`, `FF.Thread.threading_ends_partial`, `FF.Tiling.dequantize_by_tile_elementwise`, `FF.Tiling.quantize_by_tile_elementwise`, `FF.Tiling.quantize_by_tile_ok_iff`, `FF.Tiling.rows_to_tiles_spec`, `FF.Tiling.same_row_iff_same_tile`, `FF.Tiling.tiled_qdq_half_step`, `FF.Tiling.tiles_to_rows_data_shape`, `FF.Tiling.tiles_to_rows_ok_iff`, `FF.Tiling.tiles_to_rows_spec`, `FF.Tiling.tiling_bijective`, `FF.Tiling.tiling_roundtrip`, `FF.TorchFn.cast_of_values`, `FF.TorchFn.index_assignment_refused`, `FF.TorchFn.inplace_on_plain_refused`, `FF.TorchFn.inplace_refused`, `FF.TorchFn.kernel_first`, `FF.TorchFn.operands_untouched_partial`, `FF.TorchFn.view_as_of_plain_fails`, `FF.TorchFn.view_as_same_shape`, `FF.TorchFn.write_lost`, `FF.Trace.constant_output_dropped`, `FF.Trace.module_paths`, `FF.Trace.parameter_names`, `FF.Trace.traced_built_partial`, `FF.Trace.traced_call_partial`, `FF.Trace.traced_inputs`, `FF.Trace.traced_total_partial`, `FF.Trace.traced_value_partial`, `FF.Warnings.fails_iff_uncovered`, `FF.Warnings.warnings_kept_partial`, `FF.Worklist.callees_converted_partial`, `FF.Worklist.converted_once`, `FF.Worklist.only_called_converted_partial`, `FF.Worklist.reached_converted_partial`, `FF.Worklist.search_ends`, `FF.Worklist.source_of_method`
