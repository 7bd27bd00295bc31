# Formal model of HEMTT – design

Source under study: `/repo` (BrettMayson/HEMTT, Rust), read as text only. It was neither built nor run.
Model and proofs: Lean 4.33 under `/verif/lean/Verif`, Mathlib imported module by module.

* `Verif/Model/*` – transcriptions of the code, every definition with file and lines in `/repo`.
* `Verif/Lib/*` – lemmas, and the specifications that need room (grammar, conditional trees, decoders).
* `Verif/Props/*` – the property theorems `Cnn_…`, each with an example that meets its hypotheses.
* `properties.jsonl` – the properties; `MANIFEST.json` – which theorems settle them; `AXIOMS.md` – axioms per theorem;
  `seeded/LOG.jsonl` – wrong programs tried against the theorems.

## Approach

* Rust functions are transcribed as total computable Lean functions over `List`, `Nat`, `Int`, `Option`, `Except` and small
  structures.
* `u8` is `UInt8`; `u16`/`u32`/`u64` are `Nat` with explicit range conditions unless wrap-around matters.
* Panics (`unwrap`, `expect`, `unreachable!`, index out of bounds) are explicit error values.
* Hash-map iteration order is a parameter (an arbitrary permutation or list).
* Recursion without an evident bound takes fuel. Theorems either show that enough fuel is always given, or speak of all
  sufficiently large amounts; "does not end" is "no amount of fuel is enough".
* External calls are parameters of the model and listed below.
* Specifications are separate from the model's helper functions.
* If the code violates a property, its negation is proved on a witness (`_violated`, or a name saying what happens) and what
  remains true is a separate theorem (`_partial` when it is a weaker form of the claim). The manifest marks a property `proved` only
  if every sentence of its statement is; exceptions the statement itself names in brackets are proved too, on witnesses or for all
  inputs. If a sentence that stands without condition is false of the code or not proved, the property is marked `partial`.

## Trusted base

1. Lean's kernel (4.33.0). No `sorry`, no axioms of our own, no `native_decide`, no `bv_decide`.
2. The axioms `propext`, `Quot.sound`, `Classical.choice` of Lean's library; `AXIOMS.md` says which theorem uses which.
3. That the definitions in `Verif/Model` say what the cited Rust code does. Nothing checks this mechanically; the mutation log
   (`seeded/LOG.jsonl`) shows that theorems react to wrong transcriptions.
4. That the specifications say what the English statements say.
5. Packages outside the repository, taken to behave as documented and modelled by parameters or hypotheses:
   SHA-1 (`sha1`, arbitrary function to 20 bytes), `rsa` key generation (hypothesis: modulus is a product of two distinct primes
   with matching exponents), `num-bigint` (`Nat`), `chumsky` combinators (ordered choice, greedy repetition with backtracking of
   the last failed turn), `pest` (the preprocessor's tokenizer: token lists are inputs), `quick_xml`, `vfs` and `std::fs` (listings
   and existence as parameters; one concrete Unix file system in `Unpack`), `arma3_wiki` (command tables as parameters), `f32`/`f64`
   arithmetic and text conversion (parameters), `str::to_lowercase` (parameter `lower`, with idempotence where stated),
   `indexmap` (`Verif.IMap`, insertion-ordered association list), `toml` deserialisation (not modelled).
6. Memory is unbounded; allocation failure and stack exhaustion are not modelled.

## What is modelled, and what is not

| Model file | Code | Properties | Left out |
|---|---|---|---|
| `Io` | `libs/common/src/io.rs` | C01, C02 | readers that fail in the middle |
| `Version` | `libs/common/src/version.rs` (parse, display, order) | C03, C04 | reading the version from project files (`try_from_script_version` file access) |
| `Math` | `libs/common/src/math.rs` | C05 | number parsing and arithmetic are parameters |
| `Prefix` | `libs/common/src/prefix.rs` | C06 | |
| `Pbo` | `libs/pbo/src` | C07–C10, C15 | the threads used for large files (same two effects) |
| `Signing` | `libs/signing/src`, hashing in `libs/pbo/src/read.rs` | C11–C15 | key generation |
| `Rapify` | `libs/config/src/rapify`, `model` | C16, C17 | |
| `Lzo` | `libs/lzo/src` | C18–C20, C43, C47 | pointer values that are computed but not accessed |
| `P3d` | `libs/p3d/src` reader and writer | C21 | `functions/missing.rs` is in `Binarize` |
| `Stringtable` | `libs/stringtable/src/{lib,package,key,totals}.rs` | C22, C44, C45 | text is in `StringtableXml` |
| `Sqf` | `libs/sqf/src/lib.rs`, `compiler/mod.rs`, `compiler/optimizer` | C23–C25, C27, C46 | warnings |
| `Sqfc` | `libs/sqf/src/compiler/serializer/mod.rs` | C26 | `display.rs` |
| `SqfParse` | `libs/sqf/src/parser/{mod.rs,database/mod.rs}`, `lexer.rs:17-32` | C28 | lexer, error messages |
| `Preproc` | `libs/preprocessor/src` (processor, defines, ifstate, pragma) | C29–C32, C35, C82 | texts of diagnostics |
| `Tokenize` | `libs/preprocessor/src/parse/{mod.rs,config.pest}` | C75–C77 | the parser `pest` generates (replaced by the grammar), Unicode tables (parameters, assumed right about ASCII) |
| `Processed` | `libs/workspace/src/reporting/processed.rs` | C33, C34 | |
| `Workspace` | `libs/workspace/src/{addons,lib,path}.rs` | C36, C37, C48, C49 | file systems (parameters), P-drive |
| `Lint` | `libs/workspace/src/lint/mod.rs`, `config/project/lint.rs` | C38 | what the single lints look for |
| `Executor` | `bin/src/{executor,report}.rs`, stages of `commands/*.rs` | C39 | what the modules do |
| `Launch` | `libs/common/src/config/project/hemtt/{launch,mod}.rs` | C40 | reading from TOML |
| `Launcher` | `bin/src/commands/launch/{mod,launcher,platforms,preset}.rs`, `libs/common/src/arma/dlc.rs` | C83, C84 | the file system and the system's answers (parameters), `hemtt dev` (parameter), links in the folder of the game, digits of other scripts, names of DLCs in configurations |
| `Unpack` | `bin/src/utils/pbo/unpack.rs` | C41 | links, permissions |
| `CaseFix` | `bin/src/utils/sqf/case.rs` | C42 | walking directories |
| `SqfLex` | `libs/sqf/src/parser/lexer.rs`, `Expression::source` of `libs/sqf/src/lib.rs` | C50, C51 | rounding and printing of `f32` (parameters) |
| `ConfigParse` | `libs/config/src/parse/*`, `libs/config/src/model/number.rs` | C52, C53, C54 | what happens after recovering from an error, spans, rounding and printing of floats (parameters) |
| `ConfigLint` | `libs/config/src/analyze/*`, `libs/config/src/lib.rs`, `libs/config/src/model/config.rs`, `rapify` of `bin/src/modules/rapifier.rs` | C55–C63 | texts and positions of reports (a place is the list of positions that leads to it), `to_lowercase` and `Version::from(f32)` (parameters), files marked not to be rapified |
| `SqfLint` | `libs/sqf/src/analyze/mod.rs`, `libs/sqf/src/analyze/lints/*` | C64–C69 | texts and positions of reports except suggestions, `to_lowercase` (parameter), what the lints read from their configuration is an argument |
| `SqfBlockLint` | S01, S02, S04, S09, S17, S23, S24 of `libs/sqf/src/analyze/lints`, `required_version` of `libs/sqf/src/lib.rs` | C70–C74 | the wiki is an argument (`arma3_wiki`), positions other than the reported one |
| `Release` | `bin/src/modules/{pbo,sign,files,archive}.rs`, `libs/common/src/config/project/files.rs`, names of `libs/workspace/src/addons.rs` | C78–C81 | glob patterns (parameter), the zip format, creating folders, generation of RSA keys (parameter), progress output; threads enter as an arbitrary order |

* PAA images (`Model/Paa.lean`): `libs/paa/src/{paa,pax,mipmap}.rs` whole, except for the conversion to base64 and the codec of the
  blocks (`texpresso`), whose bytes are an argument of writing and whose input is the result of reading.
* The version of a project and its temporary folder (`Model/Project.lean`): `libs/common/src/version.rs:47-57,86-112`,
  `libs/common/src/config/project/version.rs` without the cache, `bin/src/context.rs:64-83`. Files, the commit and the folder for
  temporary files are parameters.
* Binarizing (`Model/Binarize.lean`): `libs/p3d/src/functions/missing.rs`, `check` and `pre_build` of `bin/src/modules/binarize/mod.rs`
  and the layers of a build (C90, C91). Looking up files, the tool and the order of hash sets are parameters; finding the tool and
  making the links by which it finds its input are left out.
* Stringtables as text (`Model/StringtableXml.lean`): `libs/stringtable/src/{lib,package,key}.rs`, `bin/src/commands/localization/sort.rs`, `libs/stringtable/src/analyze/lints/01_sorted.rs`, `pre_build` of `bin/src/modules/stringtables/mod.rs`
  (C92–C94). Not modelled: the XML reader (a parameter; the theorems say what it must make of the file), lines that are not UTF-8, failures to
  write. The XML writer (`quick_xml`) is written out for the elements of a stringtable.
* The coverage report (`Model/Coverage.lean`): `bin/src/commands/localization/coverage.rs` (C95) without printing.
* How reports are shown (`Model/Reporting.lean`): `libs/workspace/src/reporting/files.rs`, `to_annotations` of
  `libs/workspace/src/reporting/diagnostic/mod.rs`, `annotation.rs` beside it, `bin/src/report.rs` (C96, C97). Three small functions of
  `codespan_reporting` (line number, column number and column index) are written out; its drawing is not modelled.
* What the commands set up, which scripts are compiled, and byte order marks (`Model/Commands.lean`): `bin/src/commands/check.rs`,
  `dev.rs`, `build.rs`, `release.rs`, `bin/src/context.rs` (`filter`), `bin/src/modules/sqf.rs`, `bom.rs` (C98 to C102). The modules are
  parameters of the pipeline of `Model/Executor.lean`; that scripts are linted in one phase of one module, and that required versions are
  set in the same phase of another, is modelled.
* Labels (`Model/Labels.lean`): `Diagnostic::from_code_processed` of `libs/workspace/src/reporting/diagnostic/mod.rs` on the model of
  processed text (C103).
* Hooks (`Model/Hooks.lean`): `bin/src/modules/hook/mod.rs`, `HEMTT.script` and the version of `libraries/{hemtt,project}.rs` (C104 to C107). A
  script is a tree of effects on an arbitrary state; the script engine (`rhai`) and the other functions of its libraries are not modelled.
* `hemtt utils verify` and the project file of `hemtt new` (`Model/Utils.lean`): `bin/src/utils/verify.rs` without the details of the files
  that are printed, `bin/src/commands/new/mod.rs:113-118`, read as `libs/common/src/config/project/mod.rs:151-184` does (C108, C109). Of the TOML format,
  basic strings are written out.
* Small lints (`Model/SqfSmallLint.lean`): S03, S11, S22 of `libs/sqf/src/analyze/lints` (C110, C111). What commands do is given by laws of
  the game (`Spec/SqfTypes.lean`); positions other than the reported one are left out.
* P drive (`Model/Pdrive.lean`): `libs/workspace/src/pdrive.rs` (C112, C113). Archives are tables of files (reading them is `Model/Pbo.lean`);
  the file system of the temporary folder is a list of paths with contents; what is installed where is a parameter.
* Project settings (`Model/ProjectFile.lean`): `libs/common/src/config/project/mod.rs:106-220`, `hemtt/mod.rs:75-96`, `lint.rs:10-36` (C114). The
  TOML reader is a parameter.
* Language server (`Model/Hls.lean`, `Model/Hover.lean`): `hls/src/diag_manager.rs`, `hls/src/config/mod.rs:47-117` (C115), `hls/src/workspace.rs` (which
  workspace, urls; C116), `to_lsp` of `libs/workspace/src/reporting/diagnostic/mod.rs` (C117), `hls/src/sqf/locate.rs` and the choice in `hover.rs`
  (C118). Tasks that publish are interleaved arbitrarily. The mapping of preprocessed text is a parameter of hovering. Not modelled: rendering
  of documentation, colours, completion, the protocol itself.
* Messages between program and game (`Model/Messages.lean`): `bin/src/controller/mod.rs`, `arma/src/lib.rs` (C119). What has arrived when the reader
  looks is a parameter; JSON is not modelled.
* Photographing (`Model/Photoshoot.lean`): `bin/src/commands/photoshoot/mod.rs` (C120) without making and converting pictures.
* Links (`Model/Links.lean`): `bin/src/link.rs`, `modules/file_patching.rs`, `commands/launch/mod.rs:288-314`, opening a build in `context.rs:90-109`, `modules/binarize/mod.rs:388-460` (C121, C122), over a file system with folders, files and links. Rights and other processes are left out.
* Crashes of the preprocessor: in `Model/Preproc.lean` every `expect`, `unwrap` and `unreachable` that sources can reach is `PErr.panic` (C123); that of a second `#else` is `PErr.stray`.
* `Model/Similar.lean` – `libs/common/src/lib.rs` (`similar_values`) and its users in the preprocessor, launch, hooks; the distance is a parameter.
* `Model/PreprocReport.lean` – which labels the codes of `libs/preprocessor/src/codes` show; the messages are not modelled.
* **Smaller commands**: `libs/config/src/analyze/chumsky.rs` (the note of a syntax error, C126), `bin/src/utils/inspect.rs`,
  `bin/src/utils/pbo/{inspect,extract}.rs` (C127; reading textures and configs is a parameter, tables are not modelled), `bin/src/update.rs` (C128; versions,
  their order, clock and network are parameters; the file is kept in characters).
* `Spec/SqfFile.lean` joins the models of the lexer, parser, optimiser, compiler and writer of scripts (C129); the reader of files in it is a specification, the game's own reader is not in the repository.
* `Model/Rapifier.lean`: `bin/src/modules/rapifier.rs`. The threads of `rayon` are programs that read and write files step by step; all interleavings of the steps are considered. A read or a write of one file is one step, creating a file is a step of its own. Directories are not read by the threads in the model (looking up an include in a folder with other case is left out). What is kept for later modules and the warning about other `.cpp` files are left out.
* `Model/Sources.lean`: the same for `bin/src/modules/sqf.rs`, and the tools of both modules put together from the models of the parsers, the optimiser, the compiler, the lints and the rapifier. The preprocessor is a parameter there, as a program that reads files.
* `Model/SourcesPre.lean`: that program: the preprocessor of `Model/Preproc.lean` on the files read so far, run again with one more file when it comes to one it does not know. A file is read once (the code reads it each time it is included and once more for the processed text). Which file a name means is fixed during the build. Where in a file the grammar fails is left out.
* `Model/Value.lean`: `bin/src/commands/value.rs`, with what of `bin/src/context.rs` opening a project for it does. What a failing run writes, the scan of the addons and the settings that are not printed are left out.
* `Model/Check.lean`: `bin/src/commands/check.rs` against `bin/src/commands/build.rs` and `release.rs`, on top of `Model/Commands.lean` and `Model/Executor.lean`. What a module does in a phase is a parameter, except which phases a module has a function for and that binarize goes by the P drive setting of the command.
* `Model/Run.lean`: `bin/src/lib.rs:69-181`, `main.rs`, `logging.rs` (only whether the command starts), and where the commands open the project (C138). What a command does in between, threads, the log and the check for updates are left out.
* `Model/WikiLinks.lean`: `markdown`, `markdown_links` and `markdown_code` of `hls/src/sqf/hover.rs:84-134, 161-192` (C140, C141). The regular expressions are modelled by a search for their opening, the shortest group and their closing. `Model/WikiFeature.lean`: `markdown_feature` (lines 136-159; C142); its regular expression is a list of items with all their matches in the order of preference, `to_uppercase` a parameter.
* `Model/VersionCache.lean`: the version kept in `libs/common/src/config/project/version.rs:17-66` and its users in a release (C139), on top of `Model/Hooks.lean`. Reading the version is a parameter (`Model/Project.lean` has it), as are the other modules; all uses are on the main thread.

Not modelled at all: the protocol of the language server; the script engine of hooks (`rhai`); book generation; terminal output.

## Plan per property

* **C01 Compressed integers round-trip** – Functions over byte lists; `writeCompressed`, `readCompressed`, `compressedLen`. Round trip by strong induction on the value.
* **C02 NUL-terminated strings round-trip** – `readCString`/`writeCString` on byte lists; induction on the string.
* **C03 Version text round-trip** – Parser and printer over character lists, `u32` parse modelled as decimal digits with range check. Round trip; negation with witness for hashes containing '-'.
* **C04 Version comparison is a sound ordering** – `partialCmp` modelled clause by clause; refinement to lexicographic comparison, order laws.
* **C05 Expression evaluator respects precedence and associativity** – Tokenizer, shunting-yard and postfix evaluator over an abstract number type; printer from expression trees with parentheses as needed; proof by induction on trees with a stack invariant.
* **C06 Addon prefix text round-trip** – `Prefix::new` over character lists.
* **C07 PBO write/read round-trip** – Writer to byte lists, cursor reader; SHA-1 is an opaque parameter (function List UInt8 -> 20 bytes). Induction over headers and contents.
* **C08 Written PBO checksum verifies** – Same model; equality of the two digest inputs. Negation witness at the level of the digest input for properties=false.
* **C09 PBO files are written sorted and deterministically** – Hash-map iteration order is an arbitrary permutation given as a parameter; theorem says output is invariant under permutation; witness for case-equal names.
* **C10 PBO builder behaves like a map** – Operations as an inductive type, semantics by fold, spec = last relevant operation in the history.
* **C11 Sign then verify succeeds** – RSA with Mathlib's ZMod / Nat.ModEq; padding as an arbitrary number below the modulus where needed; hash is an opaque parameter.
* **C12 Verification binds the signature to the given public key** – Expected to be false in the code: prove negation with a concrete key pair and the partial statement.
* **C13 Verification rejects any mismatch of hashes** – Characterisation (iff) of success.
* **C14 Key and signature files round-trip** – Byte-level writers and readers, little-endian natural numbers.
* **C15 Signature hash covers the archive** – Hash inputs as byte lists, injectivity of the input encoding up to boundaries; witness of a collision.
* **C16 Rapified configs decode to the same config** – Rapify as a function from tree and offset to bytes; specification decoder follows offsets in the final byte image. Induction on trees.
* **C17 Predicted rapified lengths are exact** – `rapifiedLength` equals length of output, induction on trees.
* **C18 LZO compression is lossless** – Compressor as state machine over arrays of bytes; decompressor state machine; invariant-based round trip.
* **C19 LZO decompression is memory safe on any input** – Decompressor over lists with explicit bounds checks; out-of-bounds accesses are explicit error values proved unreachable.
* **C20 LZO compressed size is bounded** – Invariant on produced length.
* **C21 P3D models round-trip** – Byte-level writers and readers for every nested structure.
* **C22 Stringtable sorting loses nothing** – Sort as stable sort (List.mergeSort); permutation, sortedness, idempotence.
* **C23 SQF optimisation preserves meaning** – AST + optimiser + evaluator parametric in number operations and command meanings.
* **C24 SQF optimisation never aborts** – Optimiser with explicit panic value; negation with witness; partial: no panic on scripts where arrays contain no code branch pairs.
* **C25 Compiled SQF reconstructs the script** – Compiler to instruction lists with constant/name tables; independent symbolic stack machine; induction on AST with table-extension invariant.
* **C26 Compiled SQF serialisation round-trips** – Writer to bytes and an independent decoder.
* **C27 SQF required version** – Model with database as parameter; negation witness; partial: result never exceeds the true maximum / exact when every node has a version.
* **C28 SQF operator precedence** – Precedence-climbing parser model; printer; round trip.
* **C29 Conditional compilation selects the right branches** – State machine; specification is a recursive tree semantics.
* **C30 A second #else is rejected** – Same machine; negation witnesses; partial: detection without inner conditionals.
* **C31 Macro expansion terminates** – Fuelled expansion model; divergence for every fuel; termination for ranked (acyclic) definitions.
* **C32 Macro definitions behave like a scoped map** – Operations as an inductive type and history spec.
* **C33 Source mapping covers every output character** – Mapping builder over output trees; lookup = last match; theorem for every offset.
* **C34 Text extraction by character span** – UTF-8 byte/char offsets over character lists with byte widths.
* **C35 Pragma scopes** – State = map from code to scope; history semantics.
* **C36 Addon scan rejects clashing names** – Fold over names with explicit error.
* **C37 Prefix lookups resolve the owning addon** – Hash-map iteration order as list permutation.
* **C38 Lint policy cannot be weakened** – LintManager over abstract lint records.
* **C39 Build pipeline stops at the first failure** – Executor over abstract modules (state transformers); trace semantics.
* **C40 Launch configuration inheritance terminates and merges** – Configuration graph as association list; fuelled loop; divergence for every fuel; termination on acyclic graphs.
* **C41 Unpacking stays inside the output directory** – Path join and lexical normalisation.
* **C42 SQF case fixing only changes case** – Character state machine.
* **C43 LZO small buffers** – the compressor's writes checked against the buffer length; out-of-bounds write for every too small buffer, by comparing runs with two capacities.
* **C44 Stringtable containers** – the sort applied to nested containers; order-preservation theorem and witness.
* **C45 Localization coverage** – counting as a fold over keys; equality with a count over the flattened key list.
* **C46 Shared constant arrays** – positions in which the optimiser leaves a shared array, against positions that only read.
* **C47 LZO streams end** – decompression of a stream with more or fewer bytes behind it.
* **C48 Prefix file letter case** – discovery against scan over directory listings.
* **C49 Virtual paths round trip** – virtual path of a located file, located again.
* **C50 SQF text** – how tokens are spelled and where they may end, as an inductive layout of the text; equivalence with the lexer; composition
  with the grammar of C28.
* **C51 Printed SQF** – the printed text has a layout whose tokens derive the expression, by induction over the expression.
* **C52 Config text** – an inductive grammar of configs as text; soundness by induction over the parser's fuel, completeness by induction over
  derivations with a fuel bound linear in the text; uniqueness follows.
* **C53, C54** – counterexamples for all floating point implementations that print and evaluate the numbers involved as expected; the positive
  parts from C52, and by an invariant over all parsers (no abort, the rest is an end of the text).
* **C55–C63 Config lints** – each lint as a set of places in the tree, characterised by a specification of scopes, parents and names; sound
  and complete by induction over the tree.
* **C64 Comparisons** – a truth value of conditions for all values in all linear orders; reports are pairs of comparisons joined by `&&`, by
  induction over the flattening.
* **C65 Format strings** – an inductive grammar of format strings against the scanner's states.
* **C66–C69 Suggestions** – `Spec/SqfGame` says what a game is (values, states, commands with effects) and which laws of its
  commands are used; the suggested text is shown to be read (by the grammar of SQF, so by the parser) as an expression with
  the same value in all games with those laws. `Lib/SqfToy` is such a game.
* **C70 Versions** – `Within` says what is written in an expression; soundness by induction, a maximum for covered statements.
* **C71 Events** – equivalences with what is written; the lint manager's model gives what the group runner is called with.
* **C72 Reserved variables** – an invariant relating the loop's state to the values of variables in any run of the block.
* **C73 Markers** – refinement of the map of pending updates by the groups of each name.
* **C74 Names** – equivalences.
* **C75 Comments** – refinement: the flags of the loop are the modes of a character-wise specification; induction on the pairs.
* **C76 Positions** – invariant of the loop: offset and line are those of the text consumed so far.
* **C77 Reading back** – induction on the symbols; with C29 for whole programs.
* **C78 PBOs** – the loop over the entries keeps a sublist of the folder; injectivity of paths; with C07 for reading back.
* **C79 Release** – frame reasoning: signing an addon touches only its signature and its key, which differ for different targets; with C11.
* **C80 Copies and archive** – frame reasoning over copies in turn; splitting a name at separators recovers the path.
* **C81 Empty addons** – inversion of signing: it needs an archive with a header; with C07.
* **C82 Substitution** – big-step relation on symbols as specification; simulation by induction on derivations, with an invariant on the scopes and on the positions of bodies (a macro never stands inside of its own definition); then induction on programs.
* **C83 Starting the game** – inversion of the command: each step either reports or hands on what the specification asks for; sorting and removal of duplicates as in C40.
* **C84 Presets** – the fixed text of a link has `hr` only at its start, so links cannot overlap and the search from left to right finds all; order by reverse induction.
* **C85 Writing images** – the file has the layout of C86; sums cannot wrap because the blocks take at least a byte per pixel.
* **C86 Reading images** – both directions by induction on the tags and on the offsets; the layout is stated by concatenation only.
* **C87 Compressed mip maps** – from C18 and the size of the buffer.
* **C88 Version** – lines as specification; trimming and cutting at `//` computed on rendered lines, induction on the lines; soundness by inversion.
* **C89 Temporary files** – names without the separator can be split again, so the name of the folder determines the path.
* **C90 Missing textures** – the cache is sound (invariant); looking under another name is computed on `stem ++ extension`.
* **C91 Binarizing** – paths are computed from their parts; the keys of different targets differ, so that runs do not overwrite each other.
* **C92 Texts of stringtables** – texts as characters and entities; escaping, escaping again and undoubling computed piece by piece.
* **C93 Comments** – the file as items (comments, line); reading yields one record per item with comments, writing finds exactly its item.
* **C94 Sorting and lint** – the written file is again a file of items; the lint computed from the command.
* **C95 Coverage** – invariant of the loop over addons and packages, from C45.
* **C96 Lines and columns** – a beginning of a file is closed lines and the beginning of a line; starts of lines computed from that; the characters that end between two offsets are counted.
* **C97 Shown reports** – filters and their order.
* **C98 Addons built** – paths compared by components; the filters unfolded.
* **C99 Required versions** – induction over stages and modules: before the phase in which versions are set none is known, within it scripts come first, afterwards no script is linted.
* **C100 Version not out yet** – invariant of the loop.
* **C101 Scripts compiled** – induction over the files; lines from C96.
* **C102 Byte order marks** – directly.
* **C103 Labels** – from C82/C83: each character of the text has one entry; how far entries reach past the end is computed by recursion.
* **C104–C107 Hooks** – a relation `Worked` between states for the hooks that ran; induction over the entries, with everything a script does arbitrary.
* **C108 Verifying** – from the theorems about archives and signatures (C11, C13).
* **C109 Project file** – a reader for basic strings of TOML, defined apart from the writer; induction over the text.
* **C110, C111 Small lints** – from the evaluation of expressions of C68 to C74, with laws for the commands concerned.
* **C112 Files of the game** – invariant of the temporary folder, over sequences of requests.
* **C113 P drive** – by cases over what is there.
* **C114 Project settings** – `str::replace` is characterised by a relation; the rest by cases, for every TOML reader.
* **C115 Editor** – invariant over reachable states: what will be shown when all tasks are done is what was last sent.
* **C116 Workspaces** – length of the common beginning of two paths, by induction.
* **C117 Positions** – from C96; units of UTF-16 counted by recursion.
* **C140 Links in the documentation** – a text in pieces; invariant of the loop: the text with the marks replaced that were found so far.
* **C141 Code in the documentation** – the same invariant for each of the passes; what one writes begins no mark of the next.
* **C142 Feature boxes** – induction over the lazy and the greedy group; no item list that ends in a brace matches a text without one.
* **C118 Hovering** – mutual induction over expressions and statements.
* **C119 Messages** – induction over the passes of the loop: what is in the socket is always a sequence of whole messages.
* **C120 Photographing** – `trim_start_matches` unfolded once; induction over what is pending.
* **C121 Loose files** – resolving of links with fuel; what a path shows is followed through the two links.
* **C122 Tree for binarize** – induction over the addons, invariant: what is made so far shows what it should.
* **C123 No crash** – mutual induction over the functions of the preprocessor; invariant: macros known so far come from tidy definitions.
* **C124 Suggestions** – sorting and taking of a filtered list; alignments give the distance of a slip.
* **C125 Reports** – mutual induction over the functions of the preprocessor: every position comes from a token of a read file, every stream is a part of one file in order; then C76 for the text.
* **C126 Line of a syntax error** – invariants of the three loops over the bytes; ASCII text has one byte per character.
* **C127 Inspecting** – the first bytes of what is written tell the kinds apart; then the round trips of C07 to C09 and C14.
* **C128 Update check** – induction over sequences of commands; invariant: the file holds an answer given at its time.
* **C129 From text to file** – composition: parser output keeps the text of code (invariant of the parser), the optimiser keeps it and shares only constant arrays, every constant array pushed by an instruction is shared (invariant of the compiler), and the reader finds it again; the names of tokens are ones the compiler takes.
* **C130 Rapifying** – the threads are programs with reads and writes; invariant over all interleavings: each program is where it would be alone, with its own view of the files, as long as nothing a program writes is read or written by another one. Results have different paths because the names they come from differ.
* **C131 From the sources to the PBO** – C130's invariant for scripts, frame argument for the second module, then C78, C129 and C56.
* **C132 Built-in macros** – invariant of the expander: tokens of values, arguments and bodies come from files or are made for a use at the top, the site is passed down unchanged; the count only grows and each number is used at most once; simulation by a fold for files without directives.
* **C133 From the bytes of the sources** – parametricity: two runs with different signs for unknown files are either the run on all files or both end with the sign of the same file (induction on the depth over all seven functions); the number of unknown files decreases; positions of the output lie in read files (C125's invariant).
* **C134 Printed values** – the values are compared with the model of a release (C79, C80) and with the reader of versions (C03): the key, the signatures and the archive have the names that are printed.
* **C135 Building twice** – the packing loop adds the prefix at most once, so the properties do not depend on the order of the entries; the files are a permutation (C78), which the sorting of the writer removes (C09); threads end in one state (C130, C131).
* **C136 Check and build** – the runs are written as chains of steps that stop at the first failure; modules without a function for a phase are neutral, so the chain of `check` is a prefix of that of `build`.
* **C137 Released and verified** – composition: C79 gives the signature beside each PBO and the key of its mod, C07/C08 what is read back, C108 what is printed; C15 carries the files of a replaced PBO over to those of the sources (C78).
* **C138 How a run ends** – case analysis over commands and outcomes, on top of C97 for what is shown and annotated.
* **C139 The version a run uses** – refinement: hooks with the kept version do what hooks without it do, each told what can be read when it starts (simulation through scripts that call scripts); invariant over the stages: what is kept is what would be read.

## Findings

Behaviour of the code, met while modelling, that a user would not expect. Those with a theorem are named; the others were seen when
reading and are kept here for the record.

* **Versions** – a hash containing `-` is lost by printing and parsing (`C03_hash_with_dash_lost`); equality and order disagree
  (`C04_eq_differs`).
* **Math** – malformed input is accepted (`C05_malformed_accepted`), a leading minus rejected (`C05_leading_minus_rejected`).
* **PBO** – without properties the checksum differs from what the reader computes (`C08_no_properties_differs`); names that differ only in
  case make output depend on hash order (`C09_case_clash_nondeterministic`) and escape the signature (`C15_case_clash_uncovered`).
* **Signing** – verification uses modulus and exponent of the signature, not of the given key: a signature can be forged for any key
  and archive (`C12_forgery`).
* **LZO** – the compressor writes beyond a buffer smaller than the documented bound instead of reporting an error (`C43_violated`).
* **Stringtables** – containers are not sorted (`C44_unsorted_after_sort`).
* **SQF optimiser** – panics on some arrays (`C24_abort`); arrays chosen by `else` are shared although they can be changed
  (`C46_else_escapes`). Required version reported too low (`C27_under_reports`). The entry point index wraps (`C25_entry_wraps`).
* **SQF parser** – `Database::a3_with_workspace` does not take out names with a precedence of their own: a project command `or`
  changes the meaning of `a or b == c` (`C28_workspace_violated`). A command that is both operand and prefix is never read as an
  operand (`C28_both_violated`). `private = 1` is an error only if `private` is not a command.
* **Preprocessor** – a nested conditional hides the first of two `#else` (`C30_violated`); an `#else` without `#if` aborts a debug
  build and is accepted by a release build (`C30_stray_else`), a stray `#endif` is accepted (`C30_stray_endif`); mutually recursive object
  macros and self-includes never end (`C31_violated_mutual`, `C31_violated_include`), so does `#define A F(A)`; line-scoped pragma flags are never
  cleared (`C35_line_flags_stay`); `__ARMA__`, `__ARMA3__` are reserved but never defined (`C32_arma_undefined`); inside macro bodies a false
  `#ifdef` branch still emits argument uses (`C29_violated_in_macros`). Also seen: a function-like macro name as last token of a body
  panics; `#if X` at the end of a file without newline panics; `#include` at the end of a macro body panics; a line starting with `#` not
  followed by a word loses the `#`; `#define X 1 ` keeps the trailing blank; commas split macro arguments at any depth of
  parentheses; arguments are dynamically scoped.
* **Source map** – the end of a token's mapping overshoots (`C33_mappings_overshoot`).
* **Workspace** – nested prefixes and double prefix files make lookups depend on hash order (`C37_nested_order_dependent`,
  `C49_two_prefixes_order_dependent`); the Kelvin sign in a path panics (`C37_kelvin_panics`); prefix files in some letter cases are found by the
  discovery but not by the scan (`C48_violated`).
* **Lints** – two lints of one name are accepted when registered together (`C38_same_name_accepted`); a default severity below the minimum is
  not checked; a lint whose minimum is `Bug` can be disabled.
* **Executor** – the archive is already made when a post-release module fails (`C39_archive_before_post_release`).
* **Launch** – a circle of `extends` that does not contain the start never ends (`C40_violated`); `parameters` are sorted, so their order is
  lost.
* **Unpack** – names with `..` or a leading separator leave the output directory (`C41_violated`).
* **Letter case tool** – not idempotent (`C42_twice_violated`), changes comments like `/*/ HINT */` (`C42_comment_violated`) and single-quoted strings
  (`C42_quoted_violated`).
* **Printed SQF** – `Expression::source` does not double quotes inside strings and prints large numbers in a form the lexer refuses
  (`C51_string`, `C51_large`); the lexer refuses `.5e3`.
* **Config parser** – `x = 1.0 ;` is an integer, `x = 1.0;` a float (`C53_violated`); `x = 1.0.0;`, the documented example of an invalid value, is
  the integer 10 (`C53_joined_violated`); `__EVAL` without brackets aborts (`C54_violated`); `-2147483648` is stored in 64 bits; `x[] 5;` is
  read although the `=` is missing; `class` followed by a tab or a line break is refused; a string that ends in a backslash before a `\n` outside
  of the quotes loses the line feed.
* **Config lints** – the severity a project gives a lint is never used, so the lint about letter case, a warning, stops the build
  (`C61_violated`), and it reports a mistake once for every class around it; `requiredVersion = 2;` asks for no version (`C62_violated`);
  `class data; data = 1;` is no duplicate; a class inside of another counts as a declared parent outside of it (`C59_any_scope`); magazines
  are compared letter by letter.
* **SQF lints** – comparisons with the number first are read the wrong way round (`C64_violated`); a format string that skips an argument but
  repeats another passes (`C65_violated`).
* **Suggestions of SQF lints.** `parseNumber` is put before conditions without parentheses, so `if (_n > 5) then {1} else {0}`
  becomes `parseNumber _n > 5`; texts `"1"`/`"0"` become numbers; a double quote in a string ruins the suggestion
  (`C66_violated`, `C68_violated`); numbers within 2^-23 of 0 or 1 are replaced as if equal (`C67_violated`).
* **Block lints.** The version check gives up on any command with a variable, literal or array as operand and repeats reports
  for every block around (`C70_violated`); `event_unknown` cannot be turned off, and its `ignore` is compared with the command
  (`C71_off_violated`, `C71_ignore_violated`); reserved variables can be lost unnoticed (`C72_violated`); markers and banned
  commands: `C73_violated`, `C74_banned_violated`.
* **Comments** (C75, C76): `/*` in a `//` comment starts a block comment that swallows the following lines
  (`C75_violated_line`); `/*` in a string keeps later comments (`C75_violated_string`) and hides line ends from `__LINE__`
  (`C76_violated_line`); a no-break space in a `//` comment makes the file unreadable (`C75_violated_unreadable`); a file that ends
  in a `//` comment has no end token, so `#undef // later` aborts (`C75_violated_end`); an apostrophe outside of strings keeps
  comments (`C75_violated_apostrophe`); columns are reset by comments (`C76_violated_column`).
* **Releases** (C78–C81): patterns of `files.exclude` as documented never match (`C78_violated_exclude`); a prefix file further
  down decides (`C78_violated_prefix`); with a dot in the project's prefix all addons are written to one file, and only the last
  is left (`C79_violated_prefix`), and the archive loses part of its name (`C80_violated_name`); a file like `.hemttrc` is never
  copied (`C80_violated_hemtt`); the check for empty addons misses some and reports others wrongly (`C81_violated_settings`,
  `C81_violated_folder`).
* An object-like macro used in the body of a function-like macro sees the parameters of the latter (`C82_violated_capture`); `#x` in the arguments of a call inside of a body is not quoted (`C82_violated_quote`); commas in parentheses separate arguments, an empty last argument does not count (`C82_violated_comma`, `C82_violated_empty`).
* **Starting the game** (C83, C84): `--executable` is ignored (`C83_violated_executable`); outside of Windows a single game never gets
  `-filePatching` (`C83_violated_patching`) and nothing starts where `flatpak` is not installed (`C83_violated_flatpak`); on Linux the
  path of the project is looked up in the workshop folder, so nothing starts at all (`C83_violated_linux`); `--instances 0` aborts
  (`C83_violated_zero`); the preset `v1.2` is read from `v1.html` (`C84_violated_dot`).
* **PAA images** (C85 to C87): images of 32768 or more pixels in width or 65536 in height are written but cannot be read back
  (`C85_violated_large`); writing aborts for images without pixels and for 16 MiB of blocks (`C85_total`); every file in the formats
  DXT2, DXT4, RGBA and GRAYA with a mip map aborts the program (`C86_violated_formats`); the buffer for a compressed mip map with a side
  not divisible by four is too small for the codec (`C87_violated_sides`).
* **Version and temporary files** (C88, C89): numbers beside a path are an error, not an override (`C88_violated_override`); `git_hash`
  above 40 aborts (`C88_violated_hash`); definitions in block comments count, redefinitions do not (`C88_violated_file`); different
  projects can have the same temporary folder, and a project just below the root removes those of all (`C89_violated_shared`,
  `C89_violated_root`).
* **Binarizing** (C90, C91): a missing material that is named like a texture found under another name is not reported
  (`C90_violated_shared`); a texture in a folder named like an image is reported although it is there (`C90_violated_folder`); an
  empty model stops the build with an abort (`C91_short`).
* **Stringtables as text** (C92, C93): identifiers with `&amp;` are written back with a bare `&` (`C92_violated_amp`); a comment after the last
  line, or before a text with an entity, is lost (`C93_lost_at_end`, `C93_lost_entity`); before a blank line or a line that occurs twice it is
  repeated (`C93_repeated_blank`, `C93_repeated_line`).
* **Reports** (C96): a report in an empty file aborts the program (`C96_empty`); one behind the last line end is shown on the line before (`C96_after_last`).
* **Required versions** (C99): the lint `required_version` and the check of event handlers against the required version never report anything: `SQFCompiler` is added before `Rapifier`, and both work in `pre_build` (`C99_never`, `C99_violated`). The warning `BSW1` works, but not in `hemtt check` (`C100_check`), though the documentation says that it runs the same checks as `hemtt dev`.
* **Scripts** (C101): a script that cannot be parsed is skipped without an error if any line begins with `force ` (`C101_reported`).
* **Excluded addons** (C98): `exclude = ["addons/unused/"]`, with a slash at the end, excludes nothing (`C98_dev`). An optional addon that is excluded is reported as not found (`C98_dev_fails`).
* **Byte order marks** (C102): not found in files without extension, such as `$PBOPREFIX$` (`C102_reported`).
* **Reports about preprocessed text** (C103): a parse error at the end of a text with any character outside of ASCII has no diagnostic. It fails the build but nothing is shown (`C103_silent_eof`). A report about the text up to its end is not shown either, or does not cover the last token (`C103_silent_end`, `C103_last_token`, `C103_last_macro`).
* **Hooks** (C105 to C107): what becomes of a script that a hook runs with `HEMTT.script` is dropped, so it may be missing or fail (`C105_violated`); `hemtt script tools.v2` runs `tools.rhai` (`C106_violated`); a folder within the folder of a phase stops the command (`C107_error`).
* **Verifying** (C108): `hemtt utils verify` ends with exit code 0 although verification fails (`C108_exit_violated`, `C108_exit_reached`); for an archive without prefix it prints both `Verification Failed` and `Verified!` (`C108_no_prefix`).
* **New projects** (C109): answers are put into the project file without escaping (`C109_read_back`). `[hemtt.launch]` within an answer becomes `[hemtt.launch.default]` (`C109_violated_heading`).
* **Types of constants** (C110): `typeName text (locations select 0)` is `"STRING"`, but the lint suggests `"TEXT"` (`C110_violated_location`); `typeName objNull` in the usual spelling is not reported (`C110_violated_case`).
* **P drive** (C112, C113): files taken out of the game are never looked at again, also if they were written in part or the game was updated (`C112_violated_truncated`, `C112_violated_stale`); aborts (`C112_violated_slash`, `C112_violated_folder`); the order of places differs from the documentation (`C113_violated_default`).
* **Lints for stringtables** (C114): they are lost if they are in `project.toml` and there is a `lints.toml`, because `LintGroupConfig::is_empty` does not look at them (`C114_violated_stringtables`).
* **Editor** (C115, C116, C117): tasks that publish are not ordered, so a corrected error can stay shown for ever (`C115_violated_order`). A file is taken for one of another workspace, or of some workspace although it is outside of all, which aborts (`C116_violated_beside`, `C116_violated_within`, `C116_violated_outside`); encoded urls are not decoded (`C116_url`). Characters are counted as characters, not as UTF-16 (`C117_position`).
* **Links in the documentation** (C140): `[[Arma 3]]` and `{{Link|Arma 3}}` are shown with a space in the address, unlike `[[Arma 3|text]]` (`C140_violated_space`).
* **Code in the documentation** (C141): `[[1, 2]]` in an example is taken for a link (`C141_violated_array`).
* **Feature boxes** (C142): a box is taken to reach to the last `}}` of the description, so that its braces are shown and those of what is behind it are lost (`C142_violated_behind`).
* **A second `#else`** (C30): behind an inner conditional it is always accepted and ends the outer one, so that what follows is always read (`C30_hidden`).
* **Hovering** (C118): nothing is shown on the first character of a command (`C118_violated_first`), for what reaches to the end of the text (`C118_violated_end`), or for the operator of `a+b` (`C118_violated_operator`); the file of a token is not looked at (`C118_violated_file`); the line behind a directive is taken for the first line (`C118_violated_line`).
* **Messages** (C119): if the length of a message has arrived and the message has not, the program stops (`C119_violated_body`); a part of a length that has arrived is lost, and then the program stops (`C119_violated_length`); so does a message in a mission of no action (`C119_violated_unknown`), also if the profile is in a folder `autotest` (`C119_violated_profile`).
* **Photographing** (C120): pictures of another mod whose prefix begins with the prefix of the project are taken for its own (`C120_violated_other`); names are compared as written (`C120_violated_case`).
* **Links** (C121, C122): a link of another project with the same prefix in the folder of the game stays (`C121_violated_other`); on unix with `--just` so do links of a copied project (`C121_violated_copied`), and a broken link stops the build (`C121_violated_moved`). A prefix within another one makes a link in the folder of sources (`C122_violated_nested`); an include above a prefix is not seen on unix (`C122_violated_include`).
* **Crashes of the preprocessor** (C123): `#define Q QUOTE` and then `Q(b)` (`C123_violated_alias`); a macro that is nothing at the end of another one (`C123_violated_nothing`); `#if A` as the last line without line break (`C123_violated_last_line`); `#if __COUNTER_RESET__` (`C123_violated_reset`); directives in macros (`C123_violated_directive`).
* **Suggestions** (C124): missions in `.hemtt/missions` are never suggested (`C124_violated_mission`); a preset with a dot in its name is suggested and then not found (`C124_violated_preset`); the order of a hash map decides among more than three (`C124_violated_order`).
* **Reports of the preprocessor** (C125): `#include a.hpp` fails the build and shows nothing (`C125_violated_nothing`); a wrong number of arguments marks the place of the definition in the wrong file (`C125_violated_count`); the report about a comparison has the number of another code and crashes for an empty macro (`C125_violated_compare`).
* **The line of a syntax error** (C126): at the end of a line the next one is shown (`C126_violated_line_feed`), at the end of the file nothing (`C126_violated_end`); other characters shift the line (`C126_violated_bytes`).
* **Inspecting** (C127): a private key crashes the command (`C127_violated_private_key`); an authority like `AGGGAT` makes a key a texture (`C127_violated_authority`); `.CPP` is not a config (`C127_violated_extension`).
* **Update check** (C128): stopping a command at the wrong moment makes all commands crash for twelve hours (`C128_violated_stopped`), or hides a release (`C128_violated_cut`).
* `rapify.exclude` of an `addon.toml` is matched against `/addons/<name>/<path>`, while the book's example (`missions/**/description.ext`) and the other lists of patterns are relative to the addon's folder: such patterns exclude nothing (C130_violated_exclude).
* `.rvmat` and `.ext` files are replaced by their binary form while other threads may still read them as includes: which bytes an including file sees depends on timing (C130_violated_threads).
* **Built-in macros** (C132): `__FILE_SHORT__` of a file without extension is empty (C132_violated_short); `__FILE__` is made of the project's prefix and ignores the addon's own (C132_violated_prefix); `__FILE_NAME__` and `__FILE_SHORT__` are expanded again if the name is that of a macro (C132_violated_expanded); `__COUNTER__` overflows after 65536 uses (a panic with overflow checks, else it begins again).
* **Values** (C134): `hemtt value` does not look into the folder `include`, a build does: a version found only there is no version for `hemtt value` (`C134_violated_include`).
* **Building twice** (C135): the properties of project.toml and addon.toml are kept in hash maps and written in their order: with two of them the bytes, the checksum and the signature of a PBO differ from build to build (`C135_violated_properties`).
* **Check and build** (C136): `hemtt check` has its own setting for the P drive, so a build may refuse what check passes (`C136_violated_pdrive`); the checks of signing are made only by a release (`C136_violated_sign`).
* **How a run ends** (C138): `hemtt book` fails in a folder without `.hemttout/ci_annotations.txt`, after opening the book (`C138_violated_book`); a quick launch leaves the annotations of the run before (`C138_violated_launch`).
* **Versions and hooks** (C139): a script run with `HEMTT.script` after the hook changed the version is told the old one (`C139_violated_script`); a hook that leaves an unreadable version makes the next hook abort the program (`C139_violated_abort`).
