{"id": "C01", "title": "Compressed integers round-trip", "statement": "Writing any 32-bit unsigned integer in the compressed (7 bits per byte) format and reading it back from the same position returns the same integer, consumes exactly the bytes that were written and leaves whatever follows untouched; the number of bytes written is the length announced by the length function and never exceeds five.", "quantifier": "every u32 value and every sequence of bytes following it in the stream", "why_tests_cant": "2^32 values times arbitrary trailing data; boundary mistakes sit at 2^7, 2^14, 2^21 and 2^28 and in the interaction with the following bytes.", "anchors": ["libs/common/src/io.rs: WriteExt::write_compressed_int, ReadExt::read_compressed_int, compressed_int_len"]}
{"id": "C02", "title": "NUL-terminated strings round-trip", "statement": "Writing any string that contains no NUL as a C string and reading it back returns the same string and stops exactly after its terminator; a string containing NUL never reads back as itself.", "quantifier": "every byte string and every continuation of the stream", "why_tests_cant": "strings are unbounded and the failure (an embedded NUL desynchronises every later field) only shows for particular contents and continuations.", "anchors": ["libs/common/src/io.rs: ReadExt::read_cstring, WriteExt::write_cstring"]}
{"id": "C03", "title": "Version text round-trip", "statement": "Printing a version and parsing the printed text yields the same major, minor, patch, build and hash, for every version whose hash contains no '-'; and parsing is a function of the text only up to the documented components. A hash that itself contains '-' is not preserved.", "quantifier": "every version (all u32 components, optional build, optional hash string)", "why_tests_cant": "the space of versions and hash strings is unbounded; the tests check a handful of literals.", "anchors": ["libs/common/src/version.rs: Version, TryFrom<&str>, Display"]}
{"id": "C04", "title": "Version comparison is a sound ordering", "statement": "Comparing versions is a total, transitive, antisymmetric-up-to-hash ordering that agrees with comparing (major, minor, patch, build) from most to least significant, so that the maximum of any list of versions is well defined and is an upper bound of all of them. Equality as reported by comparison and equality as reported by == do not coincide (hashes).", "quantifier": "all pairs and triples of versions", "why_tests_cant": "transitivity and totality are statements about all triples; no finite sample settles them.", "anchors": ["libs/common/src/version.rs: impl PartialOrd for Version"]}
{"id": "C05", "title": "Expression evaluator respects precedence and associativity", "statement": "For every well-formed arithmetic expression written with numbers, parentheses and the operators + - * / % ^, the evaluator returns the value obtained with the usual precedence (^ over * / % over + -), left associativity of + - * / % and right associativity of ^; it never reports an error on a well-formed expression whose operators are defined.", "quantifier": "every expression tree of any size and every legal parenthesisation of it", "why_tests_cant": "expression trees are unbounded and precedence bugs need particular nestings.", "anchors": ["libs/common/src/math.rs: eval, tokenize, shunting_yard, evaluate_postfix"]}
{"id": "C06", "title": "Addon prefix text round-trip", "statement": "A prefix accepted from a prefix file never contains a '/' or begins with a '\\\\', and re-reading the text the prefix displays gives the same prefix. In a file of several lines the prefix is the value of the key `prefix`, in whatever letter case and with whatever blanks around it.", "quantifier": "every prefix file content", "why_tests_cant": "file contents are unbounded; separators, blank lines and key=value lines combine arbitrarily.", "anchors": ["libs/common/src/prefix.rs: Prefix::new, Display for Prefix"]}
{"id": "C07", "title": "PBO write/read round-trip", "statement": "Writing an archive and reading it back yields the same properties (with the prefix property first), exactly the added files under their normalised names, each with exactly the bytes that were added, for every archive whose names and property texts contain no NUL, are not empty, no two of whose names are equal ignoring case, and whose files fit 32-bit sizes.", "quantifier": "every set of files and properties, of any number and any size below 4 GiB, in every iteration order of the internal hash table", "why_tests_cant": "archives are unbounded and the reader is driven by offsets and sentinels that only collide for particular contents.", "anchors": ["libs/pbo/src/write.rs: WritablePbo", "libs/pbo/src/read.rs: ReadablePbo::from, file, files, properties", "libs/pbo/src/model/header.rs: Header"]}
{"id": "C08", "title": "Written PBO checksum verifies", "statement": "The checksum stored by the writer equals the checksum the reader recomputes from the archive content whenever the archive is written with its properties section and no two names are equal ignoring case; when it is written without one, or with such names, the two hash different inputs.", "quantifier": "every archive that can be written", "why_tests_cant": "depends on every byte of an unbounded archive.", "anchors": ["libs/pbo/src/write.rs: WritablePbo::write", "libs/pbo/src/read.rs: ReadablePbo::gen_checksum, checksum"]}
{"id": "C09", "title": "PBO files are written sorted and deterministically", "statement": "Whatever order files were added in and whatever order the internal table iterates in, the archive lists them sorted by lower-cased name (so that it is accepted for signing), and two archives built from the same additions are byte-identical provided no two names differ only by case. With two names differing only by case the bytes can depend on hash iteration order.", "quantifier": "every set of files and every hash iteration order", "why_tests_cant": "hash iteration order is randomised per process; a test sees one order.", "anchors": ["libs/pbo/src/write.rs: WritablePbo::files_sorted, write", "libs/pbo/src/read.rs: ReadablePbo::is_sorted"]}
{"id": "C10", "title": "PBO builder behaves like a map", "statement": "After any sequence of add-file (with or without an explicit header), add-property and remove-property calls, looking at the builder gives for every name (slashes normalised) the content of the latest accepted addition, for every property key the latest value not followed by a removal, and no name or key twice; a file of 4 GiB or more is refused without any change.", "quantifier": "every finite history of builder operations", "why_tests_cant": "histories are unbounded.", "anchors": ["libs/pbo/src/write.rs: add_file, add_file_with_header, file, add_property, remove_property, property"]}
{"id": "C11", "title": "Sign then verify succeeds", "statement": "A signature made with a private key over a sorted, non-empty archive verifies against the matching public key, for every RSA key (n = p*q with distinct primes, d inverse of e), every archive and both signature versions.", "quantifier": "every key pair, authority name, archive and signature version", "why_tests_cant": "key generation is random and keys are 1024 bits; correctness is a number-theoretic statement.", "anchors": ["libs/signing/src/private.rs: BIPrivateKey::sign, to_public_key", "libs/signing/src/public.rs: BIPublicKey::verify", "libs/signing/src/lib.rs: generate_hashes, pad_hash"]}
{"id": "C12", "title": "Verification binds the signature to the given public key", "statement": "If verification of an archive with a public key succeeds then the signature was produced for that key's modulus and exponent. (The code does not ensure this: it checks the signature against the modulus and exponent carried by the signature itself.)", "quantifier": "every public key, signature and archive", "why_tests_cant": "requires adversarially chosen keys; tests only use matching keys.", "anchors": ["libs/signing/src/public.rs: BIPublicKey::verify"]}
{"id": "C13", "title": "Verification rejects any mismatch of hashes", "statement": "Verification succeeds exactly when the authority names match, the files are sorted and all three signature blocks, raised to the exponent carried by the signature, equal the three padded hashes of the archive; every other outcome is an error.", "quantifier": "every public key, signature and archive", "why_tests_cant": "soundness quantifies over all wrong signatures.", "anchors": ["libs/signing/src/public.rs: BIPublicKey::verify", "libs/signing/src/lib.rs: generate_hashes"]}
{"id": "C14", "title": "Key and signature files round-trip", "statement": "Writing a public key, private key or signature and reading it back gives the same value, for every value whose numbers fit the declared bit length and whose authority contains no NUL; numbers that do not fit are silently truncated.", "quantifier": "every key and signature", "why_tests_cant": "numbers are hundreds of bits long; truncation happens only at particular magnitudes.", "anchors": ["libs/signing/src/{public,private,signature}.rs: read, write, write_danger", "libs/signing/src/lib.rs: write_biguint"]}
{"id": "C15", "title": "Signature covers the archive", "statement": "If one signature is accepted by one key for two archives (with a properties section, file names distinct ignoring case and without '/'), the archives have the same properties, the same headers and the same content under every name, unless two different inputs with the same SHA-1 digest are exhibited. The restriction on names is needed: a file whose name equals an earlier one ignoring case is not covered, so its content can be changed without invalidating a signature.", "quantifier": "every key, signature and pair of accepted archives", "why_tests_cant": "quantifies over all pairs of archives; tests only compare a few.", "anchors": ["libs/pbo/src/read.rs: gen_checksum, hash_filenames, hash_files, file", "libs/signing/src/lib.rs: generate_hashes", "libs/signing/src/public.rs: verify"]}
{"id": "C16", "title": "Rapified configs decode to the same config", "statement": "Following the offsets of a rapified config from its header yields exactly the class tree, property names, values, arrays, expressions and deletions of the source config, for every config whose names and strings contain no NUL and which fits 32-bit offsets.", "quantifier": "every config tree of any depth and width", "why_tests_cant": "the format is a graph of absolute offsets computed from predicted lengths; an error of one byte shows only for particular shapes.", "anchors": ["libs/config/src/rapify/*.rs: Rapify for Config, Class, Property, Value, Array, Number, Str", "libs/config/src/model"]}
{"id": "C17", "title": "Predicted rapified lengths are exact", "statement": "For every config item, the length predicted before writing equals the number of bytes written, so that the writer's internal length assertions can never fail.", "quantifier": "every config tree and every starting offset", "why_tests_cant": "the assertion would abort the build for some config; all shapes must be covered.", "anchors": ["libs/config/src/rapify/*.rs: rapified_length, rapify"]}
{"id": "C18", "title": "LZO compression is lossless", "statement": "Decompressing the compressed form of any data into a buffer of the original size succeeds and returns the original data.", "quantifier": "every byte string (of any length)", "why_tests_cant": "matching, run-length and block boundaries depend on the data in ways sampling cannot cover.", "anchors": ["libs/lzo/src/compress.rs: compress, do_compress", "libs/lzo/src/decompress.rs: decompress_safe"]}
{"id": "C19", "title": "LZO decompression is memory safe on any input", "statement": "For any input bytes and any output capacity the decompressor terminates, never reads outside the input, never writes outside the output, and either fails or reports a length that fits the capacity.", "quantifier": "every byte string (including malicious ones) and every output capacity", "why_tests_cant": "the code uses raw pointers; a single malformed input is an out-of-bounds access.", "anchors": ["libs/lzo/src/decompress.rs: decompress_safe", "libs/lzo/src/lib.rs"]}
{"id": "C20", "title": "LZO compressed size is bounded", "statement": "The compressed form of n bytes never exceeds the documented worst-case size that callers allocate, and the compressor never reads or writes out of bounds.", "quantifier": "every byte string", "why_tests_cant": "an under-estimate corrupts memory for an adversarial input only.", "anchors": ["libs/lzo/src/lib.rs: worst_compress", "libs/lzo/src/compress.rs"]}
{"id": "C21", "title": "P3D models round-trip", "statement": "Reading back a written P3D model yields the same model, for every model whose faces have three or four vertices, whose texture, material and section names contain no NUL and no section uses the reserved end marker name.", "quantifier": "every model", "why_tests_cant": "models are unbounded nested data.", "anchors": ["libs/p3d/src/*.rs: P3D, LOD, Face, Point, Vertex read/write"]}
{"id": "C22", "title": "Stringtable sorting loses nothing", "statement": "Sorting a stringtable yields packages ordered by name and keys ordered by identifier in every package and container, is idempotent, and keeps exactly the same packages, containers, keys and translations.", "quantifier": "every stringtable", "why_tests_cant": "trees are unbounded; dropping or duplicating a key in a nested container shows only for particular trees.", "anchors": ["libs/stringtable/src/project.rs, package.rs: Project::sort, Package::sort"]}
{"id": "C23", "title": "SQF optimisation preserves meaning", "statement": "For every script the optimised script evaluates to the same result as the original under any meaning of commands that agrees with ordinary arithmetic and string operations on the folded commands.", "quantifier": "every script and every interpretation of the non-folded commands", "why_tests_cant": "rewrites compose in arbitrarily nested scripts.", "anchors": ["libs/sqf/src/compiler/optimizer/mod.rs: Statements::optimize, Expression::optimize"]}
{"id": "C24", "title": "SQF optimisation never aborts", "statement": "Optimising any parsed script returns a script rather than aborting the process. (The code violates this: a constant array containing an already optimised `if … then … else` branch pair reaches an unreachable! branch.)", "quantifier": "every script", "why_tests_cant": "the abort needs a particular nesting.", "anchors": ["libs/sqf/src/compiler/optimizer/mod.rs: Expression::optimize, is_constant"]}
{"id": "C25", "title": "Compiled SQF reconstructs the script", "statement": "Executing the compiled instruction list on a symbolic stack rebuilds exactly the source script (names normalised), through the shared constant and name tables, for every script that compiles.", "quantifier": "every script", "why_tests_cant": "constant sharing and table growth interact across an unbounded script.", "anchors": ["libs/sqf/src/compiler/mod.rs: Statements::compile, compile_to_instructions, compile_instructions, Context"]}
{"id": "C26", "title": "Compiled SQF serialisation round-trips", "statement": "The bytes written for a compiled script determine it: decoding them by the format's rules yields the same constants, names, instructions and entry point.", "quantifier": "every compiled script", "why_tests_cant": "unbounded nested constants with several block kinds and optional compression.", "anchors": ["libs/sqf/src/compiler/serializer/mod.rs: Compiled::serialize, Constant, Instruction, Instructions"]}
{"id": "C27", "title": "SQF required version", "statement": "The reported required game version is the highest version required by any command used in the script. (The code under-reports: any operand without a version hides its command's version.)", "quantifier": "every script and every command database", "why_tests_cant": "needs all positions of commands in scripts.", "anchors": ["libs/sqf/src/lib.rs: Statements::required_version"]}
{"id": "C28", "title": "SQF operator precedence", "statement": "The parser accepts exactly the programs of the grammar with ten precedence levels and left associative binary commands, and yields the tree the grammar gives; so any program printed with parentheses only where the precedence table requires them is read back as that program. (The code violates this for a project command called `or` or `and`, which gets the precedence of named commands, and for a command that is both an operand and a prefix.)", "quantifier": "every token sequence, every program and every command table", "why_tests_cant": "unbounded expressions; precedence mistakes need particular nestings.", "anchors": ["libs/sqf/src/parser/mod.rs: expression, binary"]}
{"id": "C29", "title": "Conditional compilation selects the right branches", "statement": "For every properly nested structure of #if/#ifdef/#ifndef, #else and #endif, a line is emitted exactly when every enclosing conditional selects the branch the line is in.", "quantifier": "every properly nested conditional structure of any depth and every outcome of the conditions", "why_tests_cant": "nesting is unbounded and skipped regions contain conditionals themselves.", "anchors": ["libs/preprocessor/src/ifstate.rs: IfStates", "libs/preprocessor/src/processor/directives.rs: directive_command"]}
{"id": "C30", "title": "A second #else is rejected", "statement": "A conditional with two #else branches, or an #else outside any conditional, is reported as an error. (The code violates both: an inner conditional between the two hides the second #else and an #else without #if aborts or is accepted.)", "quantifier": "every sequence of conditional directives", "why_tests_cant": "needs a particular history of directives.", "anchors": ["libs/preprocessor/src/ifstate.rs: IfStates::flip, push, pop"]}
{"id": "C31", "title": "Macro expansion terminates", "statement": "Preprocessing always terminates. (The code violates this: two object-like macros that refer to each other expand forever.) When no macro refers to itself through others, expansion terminates and yields the full substitution.", "quantifier": "every set of macro definitions and every input", "why_tests_cant": "termination is a liveness claim over all definitions.", "anchors": ["libs/preprocessor/src/processor/defines.rs: define_use", "libs/preprocessor/src/processor/mod.rs: walk", "libs/preprocessor/src/defines.rs: Defines"]}
{"id": "C32", "title": "Macro definitions behave like a scoped map", "statement": "After any history of #define, #undef and macro calls entered and left, looking up a name gives the innermost argument or the latest definition not undefined since; built-in names can never be redefined.", "quantifier": "every history of definition operations", "why_tests_cant": "histories are unbounded.", "anchors": ["libs/preprocessor/src/defines.rs: Defines::insert, remove, push, pop, get_readonly, contains_key"]}
{"id": "C33", "title": "Source mapping covers every output character", "statement": "For every offset inside the preprocessed text, the mapping lookup returns an entry whose text range really contains that character, and it is the outermost macro use producing it if there is one, otherwise the very token that produced it.", "quantifier": "every preprocessor output tree and every offset", "why_tests_cant": "outputs are unbounded trees.", "anchors": ["libs/workspace/src/reporting/processed.rs: append_token, append_output, Processed::mapping, mappings"]}
{"id": "C34", "title": "Text extraction by character span", "statement": "Extracting a span of the preprocessed text returns exactly the characters in the span for any mixture of one- to four-byte characters and never splits a character.", "quantifier": "every text and every span", "why_tests_cant": "byte and character offsets differ only for non-ASCII text.", "anchors": ["libs/workspace/src/reporting/processed.rs: Processed::extract, extract_from, get_byte_offset"]}
{"id": "C35", "title": "Pragma scopes", "statement": "A suppression with line scope applies to the rest of that line only, with file scope to the rest of the file but not to included files, with config scope also to included files; a wider existing scope is never narrowed; and changes made in an included file never leak to the including file.", "quantifier": "every history of pragma directives, lines and includes", "why_tests_cant": "histories are unbounded.", "anchors": ["libs/preprocessor/src/processor/pragma.rs: Pragma::suppress, flag, child, clear_line"]}
{"id": "C36", "title": "Addon scan rejects clashing names", "statement": "When scanning addons succeeds, no two addon folders have names that are equal ignoring case; when two do, scanning fails.", "quantifier": "every set of addon folder names in both locations", "why_tests_cant": "pairs of names over unbounded folder sets, including order dependence.", "anchors": ["libs/workspace/src/addons.rs: Addon::scan"]}
{"id": "C37", "title": "Prefix lookups resolve the owning addon", "statement": "Locating a path under an addon's prefix resolves to the file inside that addon independently of hash iteration order, provided no addon prefix is a path prefix of another; otherwise the result can depend on iteration order.", "quantifier": "every set of addon prefixes, every path and every hash iteration order", "why_tests_cant": "hash iteration order is randomised per process.", "anchors": ["libs/workspace/src/path.rs: WorkspacePath::locate, as_virtual_str", "libs/workspace/src/lib.rs: Workspace::discover"]}
{"id": "C38", "title": "Lint policy cannot be weakened", "statement": "After any successful sequence of lint registrations, every lint that runs has an effective severity at least its minimum severity, and no configuration disables a lint whose minimum severity is error.", "quantifier": "every project lint configuration and every registration history", "why_tests_cant": "quantifies over configurations and histories.", "anchors": ["libs/workspace/src/lint/mod.rs: LintManager::push, extend, push_group, check, run", "libs/common/src/config/project/lint.rs: LintConfigOverride::apply"]}
{"id": "C39", "title": "Build pipeline stops at the first failure", "statement": "Once any module or stage reports an error, no later module of that stage and no later stage runs; in particular no archive is produced by a release once a module has reported an error, stages run in the configured order, and the exit code is zero exactly when all of them ran without error.", "quantifier": "every set of modules with arbitrary behaviour and every stage configuration", "why_tests_cant": "quantifies over all module behaviours.", "anchors": ["bin/src/executor.rs: Executor::run, run_modules", "bin/src/report.rs: Report::failed"]}
{"id": "C40", "title": "Launch configuration inheritance terminates and merges", "statement": "Resolving `extends` always terminates, with an error for cycles. (The code loops forever on a cycle that does not contain the starting configuration.) On acyclic configurations the result contains every value of the chain, with scalar options taken from the nearest configuration that sets them.", "quantifier": "every set of launch configurations", "why_tests_cant": "termination over all reference graphs.", "anchors": ["libs/common/src/config/project/hemtt/mod.rs: HemttSectionFile::into_config", "libs/common/src/config/project/hemtt/launch.rs: LaunchOptionsFile::extend, dedup"]}
{"id": "C41", "title": "Unpacking stays inside the output directory", "statement": "Unpacking an archive only creates files below the chosen output directory. (The code violates this for names containing '..' or absolute names.) For names without such components it holds, whether unpacking succeeds or not, and an output directory that already exists is left alone. For an archive with ordinary file names the output directory then holds exactly the files of the archive with their contents, the prefix in `$PBOPREFIX$` and the other properties in `properties.txt`; packing and unpacking gives the files back.", "quantifier": "every archive", "why_tests_cant": "needs adversarial names.", "anchors": ["bin/src/utils/pbo/unpack.rs: execute"]}
{"id": "C42", "title": "SQF case fixing only changes case", "statement": "The case-fixing tool leaves every character unchanged except for the letter case of command names, never touches double-quoted strings or comments, and running it twice is the same as running it once.", "quantifier": "every file content and every command table", "why_tests_cant": "contents are unbounded; the scanner has a product of three modes.", "anchors": ["bin/src/utils/sqf/case.rs: file, check_buffer"]}
{"id": "C43", "title": "LZO compression into a small buffer is an error", "statement": "Compressing into a buffer that is too small for the result returns an error, as documented. (The code violates this: it never looks at the capacity and writes past the end of the buffer.)", "quantifier": "every byte string and every buffer capacity", "why_tests_cant": "an out-of-bounds write usually goes unnoticed in a test.", "anchors": ["libs/lzo/src/lib.rs: compress, compress_to_slice", "libs/lzo/src/compress.rs"]}
{"id": "C44", "title": "Stringtable sorting orders containers", "statement": "Sorting a stringtable also puts the containers of each package in alphabetical order, as the help text of the sort command says. (The code violates this: containers keep their order.)", "quantifier": "every package", "why_tests_cant": "no test has containers out of order.", "anchors": ["bin/src/commands/localization/sort.rs: Command (documentation)", "libs/stringtable/src/package.rs: Package::sort"]}
{"id": "C45", "title": "Localization coverage counts are exact", "statement": "The totals of a package count every key of the package and of its containers at any depth, and for every language exactly the keys having a text in that language; a language is reported complete exactly if no key lacks it.", "quantifier": "every package and every language", "why_tests_cant": "trees are unbounded, and one mixed-up counter among 24 shows only for that language.", "anchors": ["libs/stringtable/src/package.rs: Package::totals", "libs/stringtable/src/totals.rs: Totals", "bin/src/commands/localization/coverage.rs"]}
{"id": "C46", "title": "Constant arrays shared between executions are never handed to code that can modify them", "statement": "When SQF is optimised, an array literal turned into a shared constant is only ever placed as the direct operand of a command that consumes it; no variable, array element, code result or other command can obtain a reference to the shared array and modify it for later executions.", "quantifier": "all SQF scripts accepted by the parser", "why_tests_cant": "Sharing shows only when the same compiled code runs twice and modifies the array in between, inside the game; the optimiser's own tests compare a few expressions by eye.", "anchors": ["libs/sqf/src/compiler/optimizer/mod.rs: Expression::get_consumable_array, is_not_array_default_value, BinaryCommand::Else", "libs/sqf/src/compiler/mod.rs: push_constant"]}
{"id": "C47", "title": "LZO streams tell their own end", "statement": "If decompressing a byte string to a given size succeeds, then decompressing it with any bytes appended reports unread input, and decompressing any proper prefix of it does not succeed: a truncated or over-long stream is never accepted as complete.", "quantifier": "all byte strings, all sizes, all appended or removed tails", "why_tests_cant": "Readers that find a compressed block inside a larger file rely on it for every stream; tests try a few truncations of a few streams.", "anchors": ["libs/lzo/src/decompress.rs: lzo1x_decompress_safe", "libs/lzo/src/lib.rs: decompress_to_slice"]}
{"id": "C48", "title": "Prefix files are recognised in any letter case", "statement": "A folder holding a prefix file whose name equals one of the recognised names ignoring case is treated the same way by prefix discovery and by the addon scan. (The code violates this: the scan only tries the all-lower-case and the all-upper-case spelling, so an addon whose file is called `$PBOPrefix$` is found by discovery and refused by the scan.)", "quantifier": "for all folder contents and file names", "why_tests_cant": "Tests use the two common spellings; the claim is over all spellings and relates two separate pieces of code.", "anchors": ["libs/workspace/src/addons.rs:45-79", "libs/workspace/src/lib.rs:97-142", "libs/common/src/prefix.rs:18-24"]}
{"id": "C49", "title": "Virtual paths lead back to their files", "statement": "The virtual path of a file that lies in the folder of exactly one prefix is that prefix followed by the path inside the folder, and locating the virtual path yields the same file, whatever the iteration order of the prefix table, unless prefixes nest or something else is stored under the virtual path itself. A folder with two prefix files has order-dependent virtual paths.", "quantifier": "for all prefix tables, files and iteration orders", "why_tests_cant": "Hash iteration order and the interplay of two lookups in opposite directions cannot be enumerated by tests.", "anchors": ["libs/workspace/src/path.rs:136-148", "libs/workspace/src/path.rs:205-325"]}
{"id": "C50", "title": "SQF text is read as its tokens whatever the layout", "statement": "A text is accepted by the SQF lexer exactly if it consists of tokens, each as long as it can be, with white space between them, and then these tokens are returned with their exact positions: the text at the position of a token spells that token, tokens do not overlap, and nothing but white space lies between them. Together with the grammar this decides which texts are programs, and two texts with the same tokens apart from comments are the same program.", "quantifier": "all texts, all ways of rounding decimal numbers", "why_tests_cant": "Every boundary between two tokens is a case of its own: operators that are prefixes of others, comment marks, numbers followed by letters, doubled quotes. Tests check a handful of spellings.", "anchors": ["libs/sqf/src/parser/lexer.rs: run, base, comment, number, string, operator", "libs/sqf/src/parser/mod.rs: run"]}
{"id": "C51", "title": "An SQF expression is printed as text that means the same", "statement": "The source text produced for an expression is read again as the same expression. (The code violates this: quotes inside a string are not doubled, so exactly the strings without their own quote survive, and a number of 2^32 or more is printed with all its digits and cannot be read again.)", "quantifier": "all expressions", "why_tests_cant": "Nesting, precedence and the contents of strings are unbounded; the text is shown in suggested fixes, where tests look at a few short ones.", "anchors": ["libs/sqf/src/lib.rs: Expression::source", "libs/sqf/src/parser/lexer.rs: string, number_int"]}
{"id": "C52", "title": "Config text is read as it is written", "statement": "For every text the config parser accepts, the tree it returns is one the text denotes under the config grammar (classes with optional parent, external classes, deletions, properties with strings, numbers, __EVAL expressions and arrays, with free white space), and the whole text is used. Conversely every text written by the grammar with all its semicolons is accepted and read as exactly that tree, so a text has one meaning.", "quantifier": "all texts and all trees, any nesting depth, any white space, all floating point implementations", "why_tests_cant": "The grammar is recursive and the parser is built from ordered choices with backtracking; tests only sample texts, while a wrong order of alternatives shows only on particular combinations of white space, names and nesting.", "anchors": ["libs/config/src/parse/mod.rs:17-27", "libs/config/src/parse/property.rs:7-115", "libs/config/src/parse/array.rs:8-36", "libs/config/src/parse/value.rs:7-68", "libs/config/src/parse/str.rs:5-24", "libs/config/src/parse/number.rs:5-76"]}
{"id": "C53", "title": "A number in a config means what is written, whatever stands behind it", "statement": "A number literal in a config keeps its kind and value whatever white space follows it, and text that is no number is not read as a number.", "quantifier": "all number literals and all white space", "why_tests_cant": "The arithmetic alternative of the parser competes with the literal; which of them wins depends on the following character, and the existing tests only use literals directly followed by a semicolon.", "anchors": ["libs/config/src/parse/value.rs:7-46", "libs/config/src/parse/number.rs:5-76", "libs/config/src/model/number.rs:30-49"]}
{"id": "C54", "title": "Parsing a config never aborts the program", "statement": "For every text the config parser returns a tree or errors; it does not panic.", "quantifier": "all texts", "why_tests_cant": "A panic hides in one alternative of the grammar and is reached only by texts nobody wrote a test for.", "anchors": ["libs/config/src/parse/value.rs:48-68", "libs/config/src/parse/mod.rs:17-27"]}
{"id": "C55", "title": "A config is written only if nothing is wrong with it, and what is wrong is reported", "statement": "A config becomes a binary file if and only if nothing is reported about it. Values that make no sense, arrays where none is declared, declared arrays that are none, missing semicolons and missing braces are reported exactly where they occur, at any depth, and whatever a project says about lints. If the config is not written there is at least one report. Building a config that was read from text never aborts.", "quantifier": "all config trees of any depth, all lint settings, all orders of the lints", "why_tests_cant": "Reports come from many small checks that each see one part of the tree; that together they cover everything the writer cannot write is a statement about all trees, and a gap shows as an abort or a damaged file for a config nobody tested.", "anchors": ["libs/config/src/analyze/mod.rs:38-170", "libs/config/src/analyze/lints/c01_invalid_value.rs", "libs/config/src/analyze/lints/c06_unexpected_array.rs", "libs/config/src/analyze/lints/c07_expected_array.rs", "libs/config/src/analyze/lints/c08_missing_semicolon.rs", "libs/config/src/analyze/lints/c10_class_missing_braces.rs", "libs/config/src/lib.rs:44-105", "bin/src/modules/rapifier.rs:124-196"]}
{"id": "C56", "title": "The binary file of a config says what its text says", "statement": "For every config text that is accepted and built, reading the binary file back gives exactly the tree the text denotes under the config grammar: names, parents, order, values. Every text written by the grammar of which nothing is reported is built. Two texts with the same binary file are the same config.", "quantifier": "all texts without NUL characters, all lint settings, files below 4 GiB", "why_tests_cant": "It joins parser, checks and binary writer; each has tests of its own, but that the three agree on every text is beyond any number of samples.", "anchors": ["libs/config/src/parse/mod.rs:17-27", "libs/config/src/lib.rs:25-64", "libs/config/src/rapify/", "bin/src/modules/rapifier.rs:124-196"]}
{"id": "C57", "title": "A property defined twice is reported, with all its places", "statement": "If a body, or several bodies of classes with the same path of names up to letter case, define a property more than once and not every definition is a class, there is one report that lists all places that define it, each once. Nothing else is reported as a duplicate property. (A class that is only declared is not counted as a definition, although the documentation asks for unique names regardless of the kind of property.)", "quantifier": "all config trees whose names have no dot, all lower case mappings that add none", "why_tests_cant": "Clashes between distant bodies and at any depth depend on the keys the check builds from paths; tests have one or two properties in one class.", "anchors": ["libs/config/src/analyze/lints/c02_duplicate_property.rs:63-120"]}
{"id": "C58", "title": "A class defined twice in a body is reported, with all its places", "statement": "Two classes of one body, with a body or only declared, whose names agree up to letter case are reported together, and every such report lists exactly the classes of one name in one body, at least two.", "quantifier": "all config trees of any depth", "why_tests_cant": "The map of names is kept per body while the walk goes into bodies in between; tests look at one level.", "anchors": ["libs/config/src/analyze/lints/c03_duplicate_classes.rs:67-123"]}
{"id": "C59", "title": "A parent that is not declared is reported", "statement": "A class is reported for its parent exactly if no class of that name, up to letter case, is declared before it in the text or around it, and the parent is not the name of the class itself. So in a built config every parent is declared before its use. (Declared anywhere before: a class inside of another, which is not visible, counts too.)", "quantifier": "all config trees of any depth", "why_tests_cant": "The set of known names grows along a walk through nested bodies; order and nesting can be combined without limit.", "anchors": ["libs/config/src/analyze/lints/c04_external_missing.rs:62-111"]}
{"id": "C60", "title": "A parent written in other letter case is reported", "statement": "If the lint is on, a class is reported for the letter case of its parent exactly if in some body around it the parent is spelled differently from the class it names: the class itself, else the last class with a body before it, else the first declared class. If nothing is reported, every parent is spelled as the class it names.", "quantifier": "all config trees, all lint settings", "why_tests_cant": "Which spelling counts depends on all declarations before, at all depths.", "anchors": ["libs/config/src/analyze/lints/c05_external_parent_case.rs:62-129"]}
{"id": "C61", "title": "The severity a project gives a config lint decides whether it stops the build", "statement": "A config lint that the project sets to warning or less does not stop the config from being built. (The code violates this: the severity in the settings is never used, everything that is reported counts as an error. The lint about letter case of parents, a warning by default, stops the build.)", "quantifier": "all config trees, all lint settings", "why_tests_cant": "The settings and the reports are tested apart; no test builds a config with a lint turned down to a warning.", "anchors": ["libs/workspace/src/reporting/mod.rs:56-58", "libs/config/src/lib.rs:99-105", "libs/config/src/analyze/lints/c05_external_parent_case.rs:48-54", "bin/src/modules/rapifier.rs:124-196"]}
{"id": "C62", "title": "The required version of a config is the highest its patches ask for", "statement": "The required version of a config, and the patch it is due to, is the highest requiredVersion of the classes in CfgPatches. (The code violates this for versions written as whole numbers: requiredVersion = 2; asks for nothing. For decimal numbers it holds, the last one in a patch counts.)", "quantifier": "all config trees, all conversions of decimal numbers to versions", "why_tests_cant": "The number of patches and their order is unbounded, and the kind of number literal decides whether a version is seen at all.", "anchors": ["libs/config/src/model/config.rs:22-57", "libs/config/src/lib.rs:115-126"]}
{"id": "C63", "title": "Magazines of the project in magazine wells exist", "statement": "If the lint is on and a config has both CfgMagazineWells and CfgMagazines, a magazine is reported exactly if it is an item of an array of a well, its name begins with the prefix of the project up to letter case, and CfgMagazines has no class with a body of exactly that name. (Names of magazines are compared letter by letter although the game ignores case, and declared classes do not count.)", "quantifier": "all config trees, all lint settings, all prefixes", "why_tests_cant": "Wells, arrays and magazines are lists of any length; tests have one well with three magazines.", "anchors": ["libs/config/src/analyze/lints/c09_magwell_missing_magazine.rs:83-163"]}
{"id": "C64", "title": "Impossible and redundant comparisons in conditions", "statement": "In the condition of an `if`, two comparisons of the same variable with numbers joined by `&&` are reported exactly if they contradict each other (an upper bound below a lower bound, `!=` and `==` of one number) or overlap (bounds on the same side, the same thing twice). A condition reported as impossible has an alternative that is never true, whatever the variables are; of two comparisons reported as overlapping one follows from the other. The latter two hold if no comparison has its number first: `10 < _x && _x > 20` is reported as impossible although it is true for 30.", "quantifier": "all conditions of `&&`, `||`, comparisons and nested code, all numbers that can be written, all values of the variables", "why_tests_cant": "Conditions nest without limit and truth is about all values of the variables; the tests look at a handful of conditions with the variable first.", "anchors": ["libs/sqf/src/analyze/lints/s21_invalid_comparisons.rs:54-373"]}
{"id": "C65", "title": "Format strings fit their arguments", "statement": "Every text either is a format string (ordinary characters, `%%`, tokens `%` with all digits that follow) or has exactly one first `%` that is neither; only the latter is reported as unescaped, at that place. Otherwise nothing is reported only if no token asks for an argument that is not there and the last argument is used; a report of an undefined, unused or skipped argument is true. (Not all unused arguments are reported: `%1 %1 %3` with three arguments passes. A number of more than 64 bits counts as 0.)", "quantifier": "all texts, all numbers of arguments", "why_tests_cant": "The scanner is a state machine over any text; tests have about ten strings.", "anchors": ["libs/sqf/src/analyze/lints/s08_format_args.rs:60-158"]}
{"id": "C66", "title": "Replacing a conditional assignment by select", "statement": "An `if` with `then` and `else` whose branches are both one literal or variable is reported (unless the condition asks `isNil`). What is suggested with `select` is read by the parser as an array of the two branches and a selection by the condition, and gives the value of the `if`, if the condition is true or false and the branches have values that the condition does not change. What is suggested with `parseNumber` does so if the condition is not a binary command. (It is not otherwise: there are no parentheses around the condition. The texts `\"1\"` and `\"0\"` are taken for numbers, undefined variables and quotes in strings break suggestions.)", "quantifier": "all expressions, all states and values of the game, all tables of commands", "why_tests_cant": "Whether two programs have the same value is about all states of the game, and reading the suggestion back needs the parser on any condition.", "anchors": ["libs/sqf/src/analyze/lints/s05_if_assign.rs:56-166"]}
{"id": "C67", "title": "Replacing a selection of 0 and 1 by parseNumber", "statement": "Only `select` with two numbers close to 0 and 1 and a condition that gives truth values is reported. What is suggested is read as `parseNumber` of the condition or of its negation, and has the same value, if the numbers are exactly 0 and 1 and the condition is true or false. (Numbers that are only nearly 0 or 1 are replaced too, which changes the value.)", "quantifier": "all expressions, all states and values of the game, all tables of commands", "why_tests_cant": "The condition and the state of the game are arbitrary; tests have a few conditions and never run them.", "anchors": ["libs/sqf/src/analyze/lints/s07_select_parse_number.rs:55-214"]}
{"id": "C68", "title": "Replacing find by in", "statement": "What is suggested for comparing the result of `find` with -1 or 0 is read as `in` with the two texts exchanged, and has the same value as the comparison, if the text looked for has no double quote in it. (With one the suggestion is not what it should be.)", "quantifier": "all expressions, all states and values of the game, all tables of commands", "why_tests_cant": "The searched text is an arbitrary expression and the values are those of the game.", "anchors": ["libs/sqf/src/analyze/lints/s06_find_in_str.rs:62-137"]}
{"id": "C69", "title": "Replacing static comparisons", "statement": "What is suggested for comparing a variable with `true` or `false` is read as the variable or its negation, and has the same value if the variable is true or false. What is suggested for comparing an object with its vehicle is read as `isNull (objectParent _)` or its negation and has the same value if the object exists. (For an object that does not exist it need not.)", "quantifier": "all expressions, all states and values of the game, all tables of commands", "why_tests_cant": "Equality of values is about all states of the game.", "anchors": ["libs/sqf/src/analyze/lints/s20_bool_static_comparison.rs:52-133", "libs/sqf/src/analyze/lints/s18_in_vehicle_check.rs:57-140"]}
{"id": "C70", "title": "Commands are not newer than the required version", "statement": "Every block, statement, expression and command written anywhere in a script is given to the lints, and nothing else. A command reported as too new for a block is written in it at the reported place, and came with the reported version, which is newer than the one the addon requires. If a statement of the block is made of commands and code only and has a command newer than that, this or one at least as new is reported. (A command applied to a variable, number, text or array is never reported, however new; a command is reported once for every block around it; a required version above 255 counts as 0.)", "quantifier": "all scripts, all tables of versions, all required versions", "why_tests_cant": "Expressions and blocks nest without limit; the tests have one script.", "anchors": ["libs/sqf/src/lib.rs:46-107", "libs/sqf/src/analyze/lints/s01_command_required_version.rs:60-95", "libs/sqf/src/analyze/mod.rs:36-153"]}
{"id": "C71", "title": "Event handlers are known, with the right command, and old enough", "statement": "For a command about event handlers (not user actions) that is given the name of an event, anywhere in a script: the event is reported as unknown exactly if the wiki has none of that name; the command is reported as wrong exactly if the wiki has the event, but only for things the command is not for; the handler is reported as too new exactly if the first event of that name for the command came with a version newer than the required one. The first two are not reported for what the configuration ignores. (What is ignored are names of commands, not of events as documented; and the lint about unknown events cannot be turned off: with it off everything is reported as if it were not configured.)", "quantifier": "all scripts, all contents of the wiki, all configurations the lint manager accepts", "why_tests_cant": "It is about all nestings of arrays and code, all contents of the wiki and all configurations of three lints that share a runner.", "anchors": ["libs/sqf/src/analyze/lints/s02_event_handlers.rs:160-333", "libs/workspace/src/lint/mod.rs:202-242"]}
{"id": "C72", "title": "Reserved variables keep their values", "statement": "If nothing is reported for a block, and the variables it saves reserved variables in are used for nothing else, then the reserved variables have their values again after the block, whatever else is assigned. An assignment to a reserved variable that has not been saved before in the block is reported. `params` with a reserved name is reported for the first such name, and only then. (Blocks that use those variables otherwise, or save twice, or write `_THIS`, can leave reserved variables changed without a report.)", "quantifier": "all blocks, all values of variables, all orders of the map", "why_tests_cant": "The claim is an invariant of a state machine over any number of assignments; the tests have four blocks.", "anchors": ["libs/sqf/src/analyze/lints/s23_reassign_reserved_variable.rs:58-178"]}
{"id": "C73", "title": "Repeated updates of a marker", "statement": "For every marker, the global updates in a block between two assignments to its name form a group; the reports are exactly the groups of more than one update, each once, whatever the order of the map. Two updates in a row are always reported. (Commands in other letter case are not noticed, and a variable and a text of the same name count as the same marker.)", "quantifier": "all blocks, all orders of the map", "why_tests_cant": "Blocks have any number of markers and updates, and the order of the map is arbitrary.", "anchors": ["libs/sqf/src/analyze/lints/s24_marker_spam.rs:60-123"]}
{"id": "C74", "title": "Lints about names", "statement": "A variable is reported as written in capitals exactly if it does not begin with an underscore, has no small letter, is not `SLX_XEH_COMPILE_NEW` and is not in the list of names to ignore, where a star at the end stands for anything. A command is reported for its letter case exactly if it is not ignored and the wiki spells it otherwise, with the wiki's spelling. A command is reported as banned exactly if it is not ignored, the wiki knows it, and it is broken or in the list of banned commands. (So a banned command the wiki does not know is not reported.)", "quantifier": "all expressions, all lists of names, all contents of the wiki", "why_tests_cant": "Names and lists are arbitrary; tests have one of each.", "anchors": ["libs/sqf/src/analyze/lints/s17_var_all_caps.rs:58-91", "libs/sqf/src/analyze/lints/s04_command_case.rs:60-88", "libs/sqf/src/analyze/lints/s09_banned_command.rs:66-104"]}
{"id": "C75", "title": "Comments are not read", "statement": "The text the preprocessor works on is the source without its comments, with strings kept as they are and every line end as a line feed, if no `/* … */` begins in a string or in a `//` comment. A file of plain text lines is preprocessed to exactly that. A source is read exactly if all its characters outside of `/* … */` are known to the grammar, and what is in a block comment does not matter. (A `/*` in a `//` comment swallows the lines behind it, one in a string keeps comments, a character unknown to the grammar in a `//` comment makes the file unreadable, a comment on the last line can make the program abort, and an apostrophe outside of strings keeps comments.)", "quantifier": "all sources of any length, all Unicode tables that are right about ASCII", "why_tests_cant": "The tokenizer carries three flags through the whole file; tests have a few lines and only look at the number of tokens.", "anchors": ["libs/preprocessor/src/parse/mod.rs:26-105", "libs/preprocessor/src/parse/config.pest:1-30"]}
{"id": "C76", "title": "Tokens stand where their positions say", "statement": "Every token of a file names the file, and its offsets delimit its spelling in the source; tokens come in the order of the source. The line of a token, and with it `__LINE__`, is one more than the number of line ends before it, if no `/* … */` begins in a string or in a `//` comment. (Otherwise lines are wrong; columns are wrong behind comments and apostrophes; the end of `//` in a string is two lines too low.)", "quantifier": "all sources of any length", "why_tests_cant": "Offsets, lines and columns are counted along the whole file, so a mistake at one place shifts everything behind it; no test looks at positions of a longer source.", "anchors": ["libs/preprocessor/src/parse/mod.rs:31-102", "libs/preprocessor/src/defines.rs:190-200"]}
{"id": "C77", "title": "What is written is read", "statement": "A list of symbols that are written apart (a word is not followed by more of a word, `#` not by `#`, `/` not by `/` or `*`, comments outside of strings) is read back as these symbols and the end of the file. So a file with the text of a program of nested conditionals, definitions and comments is preprocessed to the text the program means.", "quantifier": "all lists of symbols, all structured programs", "why_tests_cant": "It is about all texts the grammar can describe, and the preprocessor's own tests start from a handful of them.", "anchors": ["libs/preprocessor/src/parse/config.pest:1-30", "libs/preprocessor/src/parse/mod.rs:107-151"]}
{"id": "C78", "title": "A PBO holds the addon's files", "statement": "The PBO that is built for an addon holds exactly the files of its folder, with their contents and under their paths below the folder, except `addon.toml`, files that say what the prefix is, `config.cpp` beside a `config.bin`, and files that a pattern of the settings matches. Its properties are what the addon's settings say, else what the project's say, else the program's own: versions, prefix, commit. If no two of the files differ only in letter case, all of that can be read back from the written file. (Patterns are matched against paths with a slash in front, so the book's own example `exclude = [\"addons/main/README.md\"]` excludes nothing; a prefix file in a folder further down replaces the addon's own.)", "quantifier": "all addons with any files, all settings, all patterns, all orders of properties", "why_tests_cant": "It is about all trees of files and all patterns; no test packs an addon and reads it back.", "anchors": ["bin/src/modules/pbo.rs:60-166", "libs/workspace/src/addons.rs:88-108"]}
{"id": "C79", "title": "Every PBO of a release is signed", "statement": "If neither the project's prefix nor the names of addons have a dot, no two addons are written to the same file. Then, if every addon has something to pack, signing the release succeeds in whatever order the addons are taken, the PBOs stay as they were built, and beside every PBO there is a signature that a key in the folder `keys` of its mod accepts, made out to `authority_version`, for an optional addon that is a mod of its own also with its name. (With a dot in the prefix all addons are written to one and the same file, without an error.)", "quantifier": "all projects with any number of addons, all contents, all orders of signing, all keys", "why_tests_cant": "Threads sign in any order into one folder, and names come from settings; the tests of the signatures look at one file.", "anchors": ["bin/src/modules/pbo.rs:60-104", "bin/src/modules/sign.rs:64-155"]}
{"id": "C80", "title": "Files of the project are copied beside the PBOs and archived", "statement": "Exactly the files of the project that are not in its folder `.hemtt` and that a pattern of the settings, from the root of the project, or one of five fixed names matches are copied to the build folder, under the same path. The archive has every file of the build folder with its content in the folder `@mod`, under its path, no name twice. It is called `prefix-latest.zip` if the prefix has no dot. (A file whose name merely begins with `.hemtt` is never copied. With a dot in the prefix the name of the archive loses all behind it.)", "quantifier": "all projects with any files, all patterns, all settings", "why_tests_cant": "It is about all trees of files and all patterns; the tests have one project.", "anchors": ["bin/src/modules/files.rs:14-67", "libs/common/src/config/project/files.rs:39-67", "bin/src/modules/archive.rs:20-107"]}
{"id": "C81", "title": "Addons with nothing to pack are reported", "statement": "Nothing is packed of an addon that the check before signing reports to be empty, if its folder holds only files. If a release is built and signed, there is something in every PBO, so no empty addon is released. (An addon with only `addon.toml` and a prefix file is not reported by the check, signing then fails; an addon with a single folder named like a prefix file is reported though it is not empty.)", "quantifier": "all addons with any files, all settings, all keys", "why_tests_cant": "Whether something is packed depends on all files and patterns, while the check looks at a count and a name.", "anchors": ["bin/src/modules/sign.rs:30-62", "libs/pbo/src/read.rs:222-241"]}
{"id": "C82", "title": "Macros stand for the text that substitution gives", "statement": "Preprocessing a file of lines of text, definitions with and without parameters, #undef and nested conditionals gives exactly the text in which every macro use in a selected branch is replaced by substitution: arguments are expanded where they are written and put in for the parameters, the body of a macro sees its own arguments only, # puts an argument or macro in quotes, ## joins, nothing in double quotes is replaced. Asked is that no macro leads back to itself, and that no macro without parameters mentions a word that is a parameter of another. The text is determined by the file. (Without the last condition the code differs from substitution: with #define A x and #define F(x) A, F(1) gives 1. # is not the quoting operator inside of the arguments of a call. Commas in parentheses separate arguments.)", "quantifier": "all programs, macro tables, arguments and nesting depths", "why_tests_cant": "Expansion recurses through macros, arguments and bodies with a stack of scopes and position tests; which combination goes wrong depends on the whole program.", "anchors": ["libs/preprocessor/src/processor/mod.rs: walk", "libs/preprocessor/src/processor/defines.rs: define_use, call_read_args", "libs/preprocessor/src/defines.rs: Defines", "libs/preprocessor/src/definition.rs"]}
{"id": "C83", "title": "Starting the game with the configured mods and parameters", "statement": "`hemtt launch` either reports an error or starts the game, never both. On Windows it starts the game exactly if everything it needs is there (the named configurations, the game, the presets, a build without errors or with `--quick` a finished one, every mod that is asked for, the mission). It then starts as many games as asked for, each with the configured program and with exactly these arguments: the DLCs and the mods of the configuration and its presets and the project itself, each once and in ascending order, without the mod that has the number in `meta.cpp`; the fixed parameters; those of the configuration; those behind `--`; the mission; `-filePatching` unless switched off.", "quantifier": "all systems (contents of the file system, location of the game), projects, configurations, presets and command lines", "why_tests_cant": "The outcome depends on the file system and on arbitrary combinations of configurations and presets; tests run without the game and check none of it.", "anchors": ["bin/src/commands/launch/mod.rs:243-358", "bin/src/commands/launch/launcher.rs:43-263", "bin/src/commands/launch/platforms.rs"]}
{"id": "C84", "title": "Presets yield their mods and DLCs", "statement": "Reading an exported preset yields the number of every link to a workshop page in it, each once and in the order of the first links, and the DLC of every link to a store page with a known number, and nothing else. The preset `name` is read from `.hemtt/presets/name.html`, if the name has no dot and no separator. (With a dot, what is behind it is lost.)", "quantifier": "all texts, all names", "why_tests_cant": "Any text can surround the links; a test covers a few exported files.", "anchors": ["bin/src/commands/launch/preset.rs:8-41", "bin/src/commands/launch/launcher.rs:102-123", "libs/common/src/arma/dlc.rs:96-118"]}
{"id": "C85", "title": "Images written as PAA are read back", "statement": "Writing an image succeeds exactly if it has pixels and its blocks take less than 16 MiB. Then the tags of the file hold, for each channel, the mean rounded down and the greatest value over all pixels. If the image is narrower than 32768 and lower than 65536 pixels, reading the file gives the format DXT5, just the three tags and one mip map, with the width and height of the image and exactly the blocks that the codec made of it. (Larger images are written but can never be read back with their size.)", "quantifier": "all images and all contents of the blocks", "why_tests_cant": "Sizes and colours are unbounded; a test reads one picture.", "anchors": ["libs/paa/src/paa.rs:110-183", "libs/paa/src/paa.rs:55-107", "libs/paa/src/mipmap.rs:19-50"]}
{"id": "C86", "title": "PAA files are read as they are put together", "statement": "A file can be read only if it is a format, tags and something that is no tag; then for each name the last tag of that name is found, and the mip maps are those standing at the offsets of the last table of offsets that are not zero, in that order. Every such file in the formats DXT1, DXT3 and DXT5 with all its mip maps is read, and no file in these formats makes the program abort. (Files in the other formats with a mip map do.)", "quantifier": "all files", "why_tests_cant": "Files come from other programs; they hold any tags in any order, and damaged ones hold anything.", "anchors": ["libs/paa/src/paa.rs:55-107", "libs/paa/src/mipmap.rs:19-31", "libs/paa/src/pax.rs:18-70"]}
{"id": "C87", "title": "Compressed mip maps show the same image", "statement": "A mip map whose sides are divisible by four hands the codec the same blocks, width and height if its blocks are stored compressed as if they are stored as they are. (If a side is not divisible by four, the buffer for a compressed mip map is always shorter than the blocks of the image.)", "quantifier": "all formats with a codec, all sizes below 32768, all blocks", "why_tests_cant": "It depends on the whole decompression of arbitrary data.", "anchors": ["libs/paa/src/mipmap.rs:76-116", "libs/lzo/src/decompress.rs"]}
{"id": "C88", "title": "The version of a project", "statement": "If the settings give the numbers and no path, they are the version and no file is read; numbers that are not complete are reported. Otherwise the version is read from the file at the path, by default `addons/main/script_version.hpp`. A file in which each part is defined as documented (`#define MAJOR 1`, also with a longer name, white space around, leading zeros and a comment behind) among any other lines yields what the first definition of each part says, without a build number if there is none; a missing part is reported. Every version read from any file stands in it, each part in the first line that begins with its definition. Behind the version stand the first characters of the commit, eight by default, none if the settings say 0; without a commit it is an error. (Setting numbers and a path is an error, not an override as documented; more characters than the commit has abort the program; definitions in block comments count, the first one counts rather than the last, tabs are not understood, a wrong build number is dropped silently.)", "quantifier": "all settings, all contents of files, all commits", "why_tests_cant": "Files are written by hand in any style; tests read one.", "anchors": ["libs/common/src/version.rs:47-57", "libs/common/src/version.rs:86-112", "libs/common/src/config/project/version.rs:27-152", "book/configuration/version.md"]}
{"id": "C89", "title": "Projects do not touch each other's temporary files", "statement": "Opening a project removes only files in its temporary folder, which is in the folder of the program. If two projects are at least three levels deep, below the same two, and their paths have no underscores, opening one leaves the temporary files of the other alone; it leaves the profile of the game alone unless the third level is called `profile` and the last. (Otherwise it need not: `my_mod` and `my/mod` have the same temporary folder, so have projects in different first folders, and opening a project just below the root removes the temporary files of all projects and the profile.)", "quantifier": "all paths of projects, all contents of the temporary folder", "why_tests_cant": "A test opens one project; the failure needs two with particular paths.", "anchors": ["bin/src/context.rs:64-83"]}
{"id": "C90", "title": "Missing textures and materials of models are reported, and only these", "statement": "Checking or building a project reports, for each editable model (MLOD) that is to be binarized, exactly the textures and materials its faces use that cannot be found. Names are looked up with a leading backslash; textures with an empty name or one beginning with # are not looked for. A texture counts as found if it exists under its name, or as .tga instead of .paa, .paa instead of .tga, or .paa instead of .png. The reports come in the order of the addons and files, and are the same whichever models were looked at before. [Provided that no material is named like an image and the extension of a texture does not also occur inside its name; both provisos are needed.]", "quantifier": "all projects (any number of addons, files, models, levels of detail and faces), all contents of the search path, all iteration orders of hash sets", "why_tests_cant": "The answer depends on a cache that all models of all addons share, on the iteration order of hash sets and on the whole search path; tests use one model at a time with a fresh cache.", "anchors": ["libs/p3d/src/functions/missing.rs:48-120", "bin/src/modules/binarize/mod.rs:141-276"]}
{"id": "C91", "title": "Exactly the files that need it are binarized, and the results are what is packed", "statement": "The binarizer is run once for each file of an addon that ends in .rtm, .p3d or .wrp (in lower case), unless binarizing is switched off for the addon, one of its exclude patterns matches the path below the addon's folder, or the file is already binarized (begins with ODOL, BMTR or OPRW). It is told to read the file in the folder of the addon's prefix and to write it to the matching folder of the build. Afterwards the build sees the binarizer's result at the path of the file, and at every other path what it saw before. Files the binarizer made nothing of are reported. A failing run stops the build, as does a file of this kind with less than four bytes. Without the binarizer nothing changes. [On systems other than Windows the first folder of the temporary path must not be the first part of a prefix.]", "quantifier": "all projects, exclude patterns, file contents, temporary folders, prefixes, separators, behaviours of the binarizer", "why_tests_cant": "The binarizer is a Windows program that tests cannot run; the paths given to it are composed by repeated trimming and replacing, whose effect depends on the names of all folders involved.", "anchors": ["bin/src/modules/binarize/mod.rs:141-386", "bin/src/context.rs:95-115", "libs/workspace/src/lib.rs:150-196", "libs/common/src/config/addon/mod.rs:122-131"]}
{"id": "C92", "title": "Sorting a stringtable keeps what its texts say", "statement": "When a stringtable is written back, every text of every key (in packages and containers) stands in the element of its language and says the same as before, whatever entities it has; identifiers and names stay the same as well.", "quantifier": "all stringtables, all texts on one line with any entities, any meaning of the entities", "why_tests_cant": "Entities are doubled before reading and undoubled after writing, by replacing text; whether that is harmless depends on every combination of characters.", "anchors": ["libs/stringtable/src/lib.rs:49-106", "libs/stringtable/src/lib.rs:112-154", "libs/stringtable/src/key.rs:4-14"]}
{"id": "C93", "title": "Sorting a stringtable keeps its comments with their lines", "statement": "Sorting a stringtable only rearranges it: the lines afterwards are those of the sorted document, indented by depth, and each has the comments before it that it had in the file, none lost and none added. [Provided that comments stand on lines of their own directly before a line (not before a blank one) that occurs once, is the beginning of no other, and has no entity in it; each key has a text and each package a key. A comment after the last line is always lost; before a blank line it is repeated before every line outside of the keys, before a line that occurs several times before each, and before a text with an entity it is lost.]", "quantifier": "all stringtables and any nesting of containers, any comments over any number of lines, any indentation and blank lines", "why_tests_cant": "Comments are found again by comparing lines of the written file with lines of the one that was read, for which every other line matters.", "anchors": ["libs/stringtable/src/lib.rs:49-106", "libs/stringtable/src/lib.rs:112-154", "bin/src/commands/localization/sort.rs:35-79"]}
{"id": "C94", "title": "The sort command and the lint for unsorted stringtables agree", "statement": "Sorting a sorted stringtable changes nothing. The lint names exactly the stringtables the command would change (beyond white space at the ends of the file), each once and in their order: up to three one by one, more in one report; those that cannot be read are reported as invalid. The command sorts the files up to the first that cannot be read and leaves it and all after it alone. If all can be read, the lint names none after the command.", "quantifier": "all sets of stringtables, all contents, with and without sorting of the keys", "why_tests_cant": "Two programs must agree on every file; tests compare single files with stored results.", "anchors": ["libs/stringtable/src/analyze/lints/01_sorted.rs:41-82", "bin/src/modules/stringtables/mod.rs:36-73", "bin/src/commands/localization/sort.rs:35-79"]}
{"id": "C95", "title": "The coverage report", "statement": "The report has one row for each language some key has a text in, in a fixed order, with how many of how many keys have one. It names exactly the addons whose stringtable has a key (in a package or any container) without the language; it says `None` exactly if all keys have it. (An addon with several packages is named once for each with a gap, and `and N more` counts these.) Nothing is printed exactly if the stringtable of some addon cannot be read.", "quantifier": "all projects, all stringtables with any nesting of containers", "why_tests_cant": "The numbers come from counters over all languages and files; tests look at one table.", "anchors": ["bin/src/commands/localization/coverage.rs:23-67", "bin/src/commands/localization/coverage.rs:95-196", "libs/stringtable/src/package.rs:41-122"]}
{"id": "C96", "title": "Reports point at the right line and column", "statement": "The line and column shown for an offset are those one gets to by reading the file up to there: one more than the line ends before it, and one more than the characters since the last, whatever characters the file has and whatever its line ends. An annotation gives these for the beginning and the end of each primary label with a message. (Behind a line end that is the last character, the line it ends is shown; in an empty file the program aborts.)", "quantifier": "all files, all offsets between characters", "why_tests_cant": "Offsets count bytes, columns characters; tests use short ASCII files.", "anchors": ["libs/workspace/src/reporting/files.rs:16-108", "libs/workspace/src/reporting/diagnostic/mod.rs:216-255", "libs/workspace/src/path.rs:112-118"]}
{"id": "C97", "title": "Every error is shown, and warnings unless they are about includes", "statement": "All errors are written to the terminal (if they have a diagnostic, see C103); warnings, notes and help exactly if they are not from include folders, or these are asked for. Help comes first, then notes, warnings and errors, those of one severity in the order they were reported, each as often as it was. A report counts as failed exactly if it has an error. The file for CI gets the annotations of what is shown without includes, each on a line of its own that can be taken apart again (if no message has a line end or a vertical bar in it).", "quantifier": "all reports", "why_tests_cant": "What is filtered depends on all labels of each report; tests compare single ones.", "anchors": ["bin/src/report.rs:27-136", "libs/workspace/src/reporting/diagnostic/annotation.rs:28-46"]}
{"id": "C98", "title": "Which addons a command builds", "statement": "`hemtt dev` and `hemtt launch` build exactly the addons named with `--just` (all if none is; case does not matter), those in `optionals` only if asked for, without those excluded by the project, in the order they are found; addons that a launch configuration asks for even if excluded. An addon is excluded only by its folder or the folder of all addons (not if a slash follows). They fail exactly if an addon named with `-o` is not built then. `hemtt build` builds exactly those named with `--just`. Earlier output is kept exactly if `--just` is used.", "quantifier": "all projects, all arguments", "why_tests_cant": "The rules depend on each other; tests try a few arguments on one project.", "anchors": ["bin/src/commands/dev.rs:88-171", "bin/src/commands/build.rs:65-116", "bin/src/context.rs:159-174"]}
{"id": "C99", "title": "Commands newer than what an addon requires are reported", "statement": "`hemtt check`, `dev`, `build` and `release` report it if a script uses a command that is newer than the version the config of its addon requires (lint `required_version`). (The code violates this: scripts are checked before any config is read, so that no command ever reports it. The same holds for event handlers that are newer.)", "quantifier": "all projects, all arguments, all behaviours of the modules", "why_tests_cant": "Tests run the lint with the version set; that it never is when it matters is a fact about the order of all modules in all phases.", "anchors": ["bin/src/commands/mod.rs:22-27", "bin/src/commands/build.rs:96-116", "bin/src/modules/rapifier.rs:147-160", "libs/sqf/src/analyze/lints/s01_command_required_version.rs:73-76", "libs/sqf/src/analyze/lints/s02_event_handlers.rs:269-272"]}
{"id": "C100", "title": "A required version that is not out yet is reported", "statement": "A build that gets to its end warns exactly if an addon requires a version above the stable one; the warning gives the highest version required, and names exactly the addons requiring it, in order. (`hemtt check` never does. A major version above 255 counts as zero.)", "quantifier": "all lists of addons with or without required versions", "why_tests_cant": "The maximum and the list of addons are kept in one loop over any number of addons.", "anchors": ["bin/src/modules/sqf.rs:140-171", "bin/src/commands/check.rs:25-47"]}
{"id": "C101", "title": "Every script is checked and compiled", "statement": "The files of the addons built that end in `.sqf` but not in `.inc.sqf` are compiled, each to a file of the same name with a `c` more. The compiled scripts are exactly those of scripts that can be preprocessed and parsed and in which no lint finds an error; what is reported is exactly what preprocessor, parser and lints report. If no error is reported, every script has been compiled. (Errors of the parser are not reported for a script in which some line begins with `force `; it is left out.)", "quantifier": "all projects, all behaviours of preprocessor, parser and lints", "why_tests_cant": "Files are independent and there are any number of them; the exception for files of settings is wider than those.", "anchors": ["bin/src/modules/sqf.rs:51-138", "libs/workspace/src/path.rs:165-189"]}
{"id": "C102", "title": "Byte order marks are found", "statement": "Exactly the files in `addons` and `optionals` that begin with a byte order mark are reported. (Files without extension, such as `$PBOPREFIX$`, and those ending in `.p3d`, `.rtm`, `.bin` or `.paa` are not looked at, and no file if the path of the project has `.hemttout` in it.)", "quantifier": "all projects", "why_tests_cant": "Which files are looked at depends on the whole path; tests have one file.", "anchors": ["bin/src/modules/bom.rs:17-60"]}
{"id": "C103", "title": "Where reports about preprocessed text point", "statement": "A report about characters `a` up to `b` of a preprocessed text, with `b` a character of the text, is always shown. It is in the file of what was written for character `a` (the macro use, if it comes from one), begins where that was written, and ends where what gave character `b` was written. Without macros, the bytes in its range are exactly the text reported. A report at the end of an ASCII text is shown at its last character. (With a character outside of ASCII it is not shown at all, and neither is a report about text up to the very end, unless some token near the end is longer than what follows it. Where such a one is shown, it ends where the last token begins, for a macro where that token was defined.)", "quantifier": "all results of preprocessing, all spans", "why_tests_cant": "The text, its macros and the span are arbitrary; what goes wrong is at the end of the text, and depends on what is written there.", "anchors": ["libs/workspace/src/reporting/diagnostic/mod.rs:60-95", "libs/workspace/src/reporting/processed.rs:130-310"]}
{"id": "C104", "title": "Which hooks run, and in which order", "statement": "The hooks of a phase run one after the other in the order of their names, each at most once, and the report has one code for each that was stopped by an error or called `fatal`, in this order. If hooks leave the folder as it is every file in it runs, whatever its extension and whatever came of those before. None runs without a folder `.hemtt/hooks` when the command begins, or without one for the phase. (The phase is broken off at a hook that cannot be read, if the version of the project is not known, or if scripts call each other without end; the hooks before it have run.)", "quantifier": "all projects, all hooks and everything they do", "why_tests_cant": "Hooks are programs that may change anything, including the folder of the hooks.", "anchors": ["bin/src/modules/hook/mod.rs:81-188"]}
{"id": "C105", "title": "A failing hook fails the build", "statement": "The report of a phase has no error exactly if no hook called `fatal`, was stopped by an error, or ran a script of which this is true. A script that is run with `hemtt script` has exactly one error if it is missing, calls `fatal` or is stopped by an error, and none otherwise.", "quantifier": "all hooks and scripts, whatever they call", "why_tests_cant": "Scripts call each other; tests have single ones.", "anchors": ["bin/src/modules/hook/mod.rs:81-188", "bin/src/modules/hook/libraries/hemtt.rs:80-100"]}
{"id": "C106", "title": "Which script is run", "statement": "`hemtt script <name>` and `HEMTT.script` run the file `.hemtt/scripts/<name>.rhai`.", "quantifier": "all names", "why_tests_cant": "The name is arbitrary.", "anchors": ["bin/src/modules/hook/mod.rs:121-135", "libs/workspace/src/path.rs:165-189"]}
{"id": "C107", "title": "Hooks are checked before the build", "statement": "With a folder `.hemtt/hooks`, every file in the folder of a phase that the script engine cannot parse is reported before anything is built, and nothing else is. The check ends with an error exactly if something in the folder of a phase cannot be read as text (a sub-folder is enough). Without the folder nothing is looked at, and no hook will run.", "quantifier": "all folders of hooks, all script engines", "why_tests_cant": "The folder may have any number of files of any kind.", "anchors": ["bin/src/modules/hook/mod.rs:195-222"]}
{"id": "C108", "title": "What verifying an archive prints", "statement": "`hemtt utils verify` prints `Verified!` exactly if the archive, the key, and the signature named after both can be read and verification succeeds, and `Verification Failed` with the reason of the failure exactly if it fails. A warning about the hash is printed exactly if the stored hash is not that of the content. An archive this program wrote and signed is verified with the public key. The exit code is 0 exactly if the archive is verified.", "quantifier": "all archives, keys and signatures, whatever is in the files", "why_tests_cant": "Files are arbitrary; tests have a few.", "anchors": ["bin/src/utils/verify.rs:30-105", "bin/src/lib.rs:159-177"]}
{"id": "C109", "title": "The project file of hemtt new", "statement": "The project file written by `hemtt new` is read back with the answers that were given exactly if there is a prefix and none of them has a double quote, a backslash, or a control character other than a tab in it. (The text is put into the file as it is, so that with one of these the file is either not valid or says something else.) This is for answers that do not have `[hemtt.launch]` in them, which is read as `[hemtt.launch.default]` wherever it is.", "quantifier": "all answers", "why_tests_cant": "Answers are arbitrary text.", "anchors": ["bin/src/commands/new/mod.rs:113-118", "libs/common/src/config/project/mod.rs:151-184"]}
{"id": "C110", "title": "The type of a constant", "statement": "`typeName` is reported exactly for numbers, strings, booleans, empty arrays, empty blocks, `text` of anything, and the constants `objNull`, `grpNull`, `controlNull` and the like; what is suggested can be read as an expression and is the value that `typeName` has.", "quantifier": "all expressions; every game in which the constants have the types of the documentation", "why_tests_cant": "Expressions are unbounded, and values belong to the game.", "anchors": ["libs/sqf/src/analyze/lints/s03_static_typename.rs:58-125"]}
{"id": "C111", "title": "Needless ! and needless _this", "statement": "An `if` with `!` and an `else` is reported, and can be replaced by one without `!` and with exchanged branches: what is done is the same. `_this call x` is reported, and can be replaced by `call x` where `_this` has a value that evaluating `x` does not change. Nothing else is reported.", "quantifier": "all expressions, all states, every game that follows the stated laws", "why_tests_cant": "Expressions and states are unbounded.", "anchors": ["libs/sqf/src/analyze/lints/s11_if_not_else.rs:53-83", "libs/sqf/src/analyze/lints/s22_this_call.rs:53-82"]}
{"id": "C112", "title": "Files of the game taken from its archives", "statement": "With a P drive that is filled on demand, every file of the game that is asked for has the content that it has in the archive of the game, in every sequence of requests and over several runs; a file is found exactly if it is in the archive, letter case aside. No request aborts the program.", "quantifier": "all archives, all sequences of requests, all states of the temporary folder", "why_tests_cant": "Requests, archives, failures and updates of the game come in any order.", "anchors": ["libs/workspace/src/pdrive.rs:80-147"]}
{"id": "C113", "title": "Which P drive is used", "statement": "A mounted P drive is used first, then one at the folder that is set in the tools, then one at the usual place, and then files are taken from the game, if it is installed.", "quantifier": "all machines: which folders exist, what the settings of the tools say", "why_tests_cant": "Machines differ.", "anchors": ["libs/workspace/src/pdrive.rs:148-207"]}
{"id": "C114", "title": "Where launch configurations and lints come from", "statement": "Launch configurations are in `project.toml` or in `launch.toml`, lints in `project.toml` or in `lints.toml`. If both files of a pair have some, reading the project fails with an error that says so; otherwise what is used is what the one file says. An old heading `[hemtt.launch]` means `[hemtt.launch.default]`; nothing else in the file is changed. Settings under a needless heading in one of the extra files are refused, and only these. A project without prefix is refused.", "quantifier": "all texts of the three files, every TOML reader", "why_tests_cant": "Texts are arbitrary.", "anchors": ["libs/common/src/config/project/mod.rs:106-220", "libs/common/src/config/project/hemtt/mod.rs:75-96", "libs/common/src/config/project/lint.rs:10-36"]}
{"id": "C115", "title": "What the editor shows", "statement": "After diagnostics were sent and everything that was started has been published, the editor shows for every file exactly the diagnostics that are known about it, of all addons together, and nothing for other files. After an addon was checked, what is known about it is what was found; what was known about others is kept.", "quantifier": "all sequences of setting, clearing and publishing diagnostics, every order of hash maps", "why_tests_cant": "Publishing is concurrent; orders are not under the control of a test.", "anchors": ["hls/src/diag_manager.rs:66-122", "hls/src/config/mod.rs:47-117"]}
{"id": "C116", "title": "Which workspace a file belongs to", "statement": "A file that the editor names belongs to the workspace whose folder it is in, in whatever order the workspaces are kept, and is found at its path below that folder. A file that the server names in a url is found again when the editor sends the url back.", "quantifier": "all paths, all sets of workspaces, every order of the hash map", "why_tests_cant": "Folders and orders are arbitrary.", "anchors": ["hls/src/workspace.rs:58-77", "hls/src/workspace.rs:127-143"]}
{"id": "C117", "title": "Positions sent to the editor", "statement": "The line of a position that is sent to the editor is that of the place in the file. The character is that of the place, as the editor counts (in units of UTF-16), exactly if no character before it in its line is outside of the first plane of Unicode.", "quantifier": "all texts without carriage returns, all places in them", "why_tests_cant": "Texts are arbitrary.", "anchors": ["libs/workspace/src/reporting/diagnostic/mod.rs:274-330"]}
{"id": "C118", "title": "Hovering over a script", "statement": "When the cursor is on a command of a script, the editor shows the documentation of that command. What is shown is always the documentation of a command of the script in whose range the cursor is and in the range of none of whose operands it is.", "quantifier": "all scripts, all mappings of preprocessed text to files, all positions", "why_tests_cant": "Scripts, macros and positions are arbitrary.", "anchors": ["hls/src/sqf/locate.rs:12-106", "hls/src/sqf/hover.rs:13-41"]}
{"id": "C119", "title": "Messages between program and game", "statement": "Messages are read in the order in which they were sent, each once and unchanged, however they arrive. When the game has said which mission it runs, its messages are given to the action that has this mission; before that they are dropped.", "quantifier": "all sequences of messages, all ways in which their bytes arrive between the reads, all missions", "why_tests_cant": "How bytes arrive depends on the scheduler.", "anchors": ["bin/src/controller/mod.rs:89-143", "bin/src/controller/mod.rs:180-193", "arma/src/lib.rs:26-71", "arma/src/lib.rs:101-108", "bin/src/controller/profile.rs:29-49"]}
{"id": "C120", "title": "What is photographed", "statement": "What is photographed are the weapons and vehicles of the configs whose picture is a file of the project that is not there; the picture is put where the config says. Every one of them is asked for once, then the game is told that this was all. The game is not started if there is nothing to photograph.", "quantifier": "all configs, prefixes, sets of files and orders of hash maps", "why_tests_cant": "Configs are arbitrary.", "anchors": ["bin/src/commands/photoshoot/mod.rs:157-269", "bin/src/commands/photoshoot/mod.rs:272-420"]}
{"id": "C121", "title": "Loose files in the game", "statement": "After `hemtt launch` (or `hemtt dev`) made its link, the game sees in its own folder, at the prefix of the project, the files of the addon folders of this project as they are, also those that change or are made later. Nothing else in the file system is changed, apart from the folder of the build.", "quantifier": "all file systems with links, all projects and addons, both systems", "why_tests_cant": "What is in the file system, and what was linked before, is arbitrary.", "anchors": ["bin/src/link.rs:1-73", "bin/src/modules/file_patching.rs:15-80", "bin/src/commands/launch/mod.rs:288-314", "bin/src/context.rs:90-109"]}
{"id": "C122", "title": "The tree for binarize", "statement": "The tree that is put together for binarize shows every addon at its prefix and every folder of `include` at its place; making it changes nothing that was there.", "quantifier": "all file systems, sets of addons with prefixes, includes and both systems", "why_tests_cant": "Prefixes and includes may be within one another.", "anchors": ["bin/src/modules/binarize/mod.rs:388-460", "bin/src/link.rs:1-73"]}
{"id": "C123", "title": "Preprocessing does not crash", "statement": "Preprocessing a file ends with a text or with a report. It never stops the program.", "quantifier": "all sources, in any number of files", "why_tests_cant": "Sources are arbitrary; crashes are in rare combinations of macros and directives.", "anchors": ["libs/preprocessor/src/processor/mod.rs:69-312", "libs/preprocessor/src/processor/defines.rs:32-325", "libs/preprocessor/src/processor/directives.rs:36-501", "libs/preprocessor/src/ifstate.rs:65-95", "libs/preprocessor/src/codes/pe7_if_unit_or_function.rs:81-96"]}
{"id": "C124", "title": "Suggestions for misspelled names", "statement": "When a name in a pragma, an `#if`, a launch configuration, a keybinding preset, a mission or a script is not known, what is suggested instead are up to three existing names, each within a fixed distance of the misspelled one in insertions, deletions and replacements, nearest first; any existing name one slip away is suggested unless three others are as near, and using a suggestion works.", "quantifier": "for all sets of names and all misspellings", "why_tests_cant": "The distance is by an external library, the candidates come from maps and folders in arbitrary order, and the claim is about all misspellings; unit tests look at one example per report.", "anchors": ["libs/common/src/lib.rs:18-33", "libs/preprocessor/src/defines.rs:280-314", "bin/src/commands/launch/error/bcle1_preset_not_found.rs:38-71", "bin/src/commands/launch/error/bcle6_launch_config_not_found.rs:38-52", "bin/src/commands/launch/error/bcle8_mission_not_found.rs:38-71", "bin/src/modules/hook/error/bhe1_script_not_found.rs:43-68", "libs/preprocessor/src/codes/pe19_pragma_unknown.rs", "libs/preprocessor/src/codes/pe20_pragma_invalid_scope.rs"]}
{"id": "C125", "title": "Reports of the preprocessor point at the source", "statement": "Every error and warning of the preprocessor is shown with exactly one main mark. It covers tokens of the preprocessed file or of a file included from it, in the file it names, from the beginning of one to the end of the same or a later one, however deep macros, arguments and includes are nested; further marks name the tokens they speak about. Every token of the output stands at a place in a file that was read.", "quantifier": "for all files, include graphs, macros and errors", "why_tests_cant": "Tests compare the printed report of one source per code; that no nesting of macros, generated values and includes leads to a mark out of a file or in a wrong one is a claim about all sources.", "anchors": ["libs/preprocessor/src/codes", "libs/preprocessor/src/processor/mod.rs:69-420", "libs/preprocessor/src/processor/directives.rs:30-420", "libs/workspace/src/reporting/mod.rs:73-97", "libs/workspace/src/reporting/diagnostic/label.rs:8-34"]}
{"id": "C126", "title": "The line shown for a syntax error of a config", "statement": "The note under the report of a syntax error of a config shows the processed lines that the error touches, from the first character that is not white space to the end of the line, and always contains the error itself; making it never crashes.", "quantifier": "for all processed texts and spans of errors", "why_tests_cant": "The tests of the repository compare a few reports of ASCII files whose errors lie inside of a line; the claim is about every text, including other characters, empty lines and errors at the ends of lines and of the file.", "anchors": ["libs/config/src/analyze/chumsky.rs:36-63", "libs/workspace/src/reporting/processed.rs:287-304"]}
{"id": "C127", "title": "Inspecting and extracting written files", "statement": "An archive, public key or signature that was written by the program is shown by the inspecting commands with what it holds, whatever the extension of the file says as long as it is not that of another kind; an archive without damage gives no warning, and warnings are given exactly for a wrong hash and a wrong order. Extracting a file gives its content under any spelling of its name, never overwrites a file and touches no other one. Files of other kinds are reported as not supported.", "quantifier": "for all archives, keys, signatures, extensions, names and states of the disk", "why_tests_cant": "Tests inspect single files; that no archive, key or authority is taken for another kind of file, and that no file on the disk is lost, quantifies over all of them.", "anchors": ["bin/src/utils/inspect.rs:26-117", "bin/src/utils/pbo/inspect.rs:37-82", "bin/src/utils/pbo/extract.rs:22-40", "libs/pbo/src/read.rs:113-123", "libs/signing/src/signature.rs:114-165", "libs/signing/src/public.rs:80-101"]}
{"id": "C128", "title": "Checking for a newer version", "statement": "At most one request for the newest release is answered within twelve hours; a version that is announced is newer than the running one and was the newest release according to an answer of the last twelve hours; failing requests change nothing and do not stop the command; local and debug versions never ask; no command crashes because of the check.", "quantifier": "for all sequences of commands, times, answers and interruptions", "why_tests_cant": "The check depends on the network, the clock and a file shared by all commands; tests do not run sequences of commands over days with failing or interrupted ones between them.", "anchors": ["bin/src/update.rs:10-72", "bin/src/lib.rs:109-127"]}
{"id": "C129", "title": "A compiled script means what its text says", "statement": "Whatever is written for a script is a file that holds the text of the script, the names of its source files and statements which mean what the text says by the rules of the language; the text of every piece of code in it is found by the offset and length kept for it. A text that is a program, has no array of 65536 or more elements and no array holding an else with code on both sides is either compiled or refused because something is too large for the format: no name is refused and nothing aborts.", "quantifier": "for all texts, tables of commands without ambiguous names, meanings of commands for which the rewritings of the optimiser hold, and readers of names that do not distinguish case", "why_tests_cant": "Each test compiles one script and compares bytes; that lexing, parsing, optimising, compiling and writing together keep the meaning of every text cannot be seen from samples.", "anchors": ["libs/sqf/src/parser/lexer.rs", "libs/sqf/src/parser/mod.rs", "libs/sqf/src/compiler/optimizer/mod.rs", "libs/sqf/src/compiler/mod.rs:29-200", "libs/sqf/src/compiler/serializer/mod.rs:456-594", "libs/workspace/src/reporting/processed.rs:287-305"]}
{"id": "C130", "title": "Rapifying: which files, where the results go, and independence of the threads", "statement": "The files that are rapified are the .cpp, .rvmat and .ext files of the addons, unless the addon's addon.toml turns rapifying off or one of its patterns matches the file. x.cpp gives x.bin beside it, the others are replaced by their binary form. The files are handled by several threads at once; whatever the order of their steps, afterwards every config without errors has its binary form at its place, every other path is unchanged, and about each file is reported what is reported when it is handled alone. A pattern of rapify.exclude in addon.toml, written relative to the addon's folder as the book has it, leaves the file alone.", "quantifier": "all addons, files, patterns, preprocessors, parsers; all interleavings of the reads and writes of any number of threads", "why_tests_cant": "Interleavings of threads cannot be enumerated by tests, and a race between files that include each other shows only under particular timing; the repository has no test of the exclusion patterns.", "anchors": ["bin/src/modules/rapifier.rs:48-207", "libs/workspace/src/path.rs:165-189", "book/configuration/addon.md:46-60"]}
{"id": "C131", "title": "From the sources of an addon to what the game finds in its PBO", "statement": "After a build, each script of an addon that has no errors is in the addon's PBO as .sqfc, made of the sources as they were before the build, and means what its preprocessed text means; each config.cpp without errors is in it as config.bin, which reads back as the tree its preprocessed text is written for, and not as text; each other file is in it unchanged. This holds for every order of the threads of both modules.", "quantifier": "all projects, scripts, configs, preprocessors, interleavings; provided no source reads the result of another one", "why_tests_cant": "It composes preprocessing, parsing, optimising, compiling, rapifying, concurrency and packing; tests look at single stages with single inputs.", "anchors": ["bin/src/modules/sqf.rs:51-138", "bin/src/modules/rapifier.rs:109-191", "bin/src/modules/pbo.rs:60-165", "bin/src/commands/mod.rs:23-26", "bin/src/commands/build.rs:104-110"]}
{"id": "C132", "title": "Built-in macros stand for the place of their use and the count", "statement": "In the output of the preprocessor __LINE__, __FILE__, __FILE_NAME__ and __FILE_SHORT__ are the line, path in the game, name and name without extension of the place where the outermost macro (or the built-in itself) is used, however many macros and arguments they came through; outside of quotation marks none of them is left; numbers from __COUNTER__ are all different and ascend until __COUNTER_RESET__; and a file without directives is otherwise unchanged.", "quantifier": "all files, includes, macro tables and nestings of uses in which macro bodies hold no directives", "why_tests_cant": "Tests expand a few built-ins at top level; that the place stays that of the outermost use and the count never repeats for every nesting of macros and arguments needs an invariant of the whole expansion.", "anchors": ["libs/preprocessor/src/defines.rs:95-223", "libs/preprocessor/src/processor/mod.rs:142-241", "libs/preprocessor/src/processor/defines.rs:47-94", "libs/preprocessor/src/processor/defines.rs:196-325"]}
{"id": "C133", "title": "Building reads the sources through the preprocessor, file by file", "statement": "When a config or script is built, the preprocessor reads the file it is asked for and each included file when it comes to it, and gives exactly what preprocessing with all the files at hand gives: the processed text (which can always be made), or the report of the error with its code. It reads nothing but that file and files that a name in a file means. The binary config or compiled script made of it stands for, or means, what this processed text says. If no result of the build exists before it, the threads that work at the same time do not disturb each other. A source without `#`, `\\` and built-in macros is parsed as its own text without the comments.", "quantifier": "all projects (any finite set of files that includes can mean), all contents of the files, all interleavings of the threads, every depth of the preprocessor", "why_tests_cant": "Tests run a few projects with one schedule of the threads and compare texts; they cannot show that the order in which files are read, or which files happen to exist, makes no difference.", "anchors": ["libs/preprocessor/src/processor/mod.rs:69-106", "libs/preprocessor/src/parse/mod.rs:26-29", "libs/workspace/src/reporting/processed.rs:181-199", "bin/src/modules/sqf.rs:74-129", "bin/src/modules/rapifier.rs:117-191"]}
{"id": "C134", "title": "Printed values are those a release uses", "statement": "`hemtt value` answers exactly the names that `hemtt value list` prints, and ends with an error for any other. The version it prints can be read back, and the values for its parts (the short form, the numbers, the number of the build, the number of characters of the commit) agree with it. The name it prints for signing is the name of the key in a release and of the signatures of its addons, prefix and version name the archive, and the patterns it prints are those by which files are copied beside the PBOs. It leaves everything that was built as it is.", "quantifier": "all settings, versions from the settings or from a file, commits, addons, keys, patterns and names asked for", "why_tests_cant": "Scripts rely on printed values to find the files of a release; tests print single values of one sample project and never compare them with what a release writes.", "anchors": ["bin/src/commands/value.rs:22-128", "bin/src/context.rs:53-138", "bin/src/context.rs:231-293", "bin/src/modules/sign.rs:144-157", "libs/common/src/config/project/files.rs:36-70"]}
{"id": "C135", "title": "Building twice gives the same PBOs", "statement": "Two builds of the same sources write the same bytes for every addon, whatever order the threads take their steps in, the file system lists the entries of a folder in, and hash maps give their entries in.", "quantifier": "for all projects, addons, sources, schedules of the threads, orders of the entries of folders and orders of hash maps", "why_tests_cant": "A test runs on one machine with one file system and a few schedules; the orders quantified over cannot be chosen by a test.", "anchors": ["bin/src/modules/pbo.rs:61-174", "bin/src/modules/sqf.rs:60-223", "bin/src/modules/rapifier.rs:60-206", "libs/pbo/src/write.rs:132-203", "libs/common/src/config/project/mod.rs:32"]}
{"id": "C136", "title": "hemtt check says what a build would say", "statement": "If `hemtt check` fails, `hemtt build` on the same project fails in the same way: with the same error or the same report, and nothing done that check has not done. If `hemtt check` passes, a build goes on exactly where check ended: everything it still can fail for is binarizing, writing the PBOs, the hooks after the build, the comparison of required versions after the build, and copying files. A release of a project that fails the check fails too.", "quantifier": "all projects, all outcomes and effects of the modules in each phase, all reports and severities, all P drive settings", "why_tests_cant": "The commands are put together from module lists and phase lists; whether one command's outcome determines another's depends on every module's behaviour in every phase, and on which failure stops which later work. A test compares two runs on one project.", "anchors": ["bin/src/commands/check.rs:25-47", "bin/src/commands/build.rs:65-116", "bin/src/commands/release.rs:73-97", "bin/src/executor.rs:74-130", "bin/src/modules/binarize/mod.rs:141-282", "bin/src/modules/sign.rs:34-64"]}
{"id": "C137", "title": "A released mod is verified, and a PBO that was changed afterwards is not", "statement": "After `hemtt release`, wherever the mod is copied to, `hemtt utils verify` with a PBO of the mod and the key in the folder `keys` of that mod prints `Verified!` and nothing else (also that the prefix is missing, exactly if the addon has none). If a PBO is replaced afterwards by one with other files or other content of a file, it is not verified, unless two texts with the same SHA-1 digest are known.", "quantifier": "all projects whose PBOs go to different files, each with at least one file, with names that differ by more than case; all keys, versions, authorities, folders, orders of hash maps; all archives with a header of properties and names that differ by more than case put in the place of a PBO", "why_tests_cant": "What is written by packing, signing, and naming of files has to be found and accepted by a second program path that derives the names of files from the key; a test has one key, one name, one archive.", "anchors": ["bin/src/modules/pbo.rs:34-165", "bin/src/modules/sign.rs:66-155", "bin/src/utils/verify.rs:30-105", "libs/signing/src/private.rs:158-186", "libs/signing/src/public.rs:107-150"]}
{"id": "C138", "title": "How a run ends", "statement": "The exit status of a run of the program is 0 exactly if the project could be opened, the command came to its end, and none of its reports is an error; an error, an abort or a report of severity error gives 1. All visible reports are shown, and after a run on a project the file of annotations for continuous integration holds exactly those of the reports of this run, whatever earlier runs left. Commands that need no project (new, utils, wiki) can be run anywhere and leave that file alone.", "quantifier": "All commands, all outcomes of a command, all lists of reports, all folders (with or without a project, with or without the results of earlier runs).", "why_tests_cant": "Tests call the functions of single commands; the exit status and the file of annotations come from the end of the whole run and from what earlier runs left, in every combination of command and outcome.", "anchors": ["bin/src/lib.rs:76-181", "bin/src/main.rs:5-48", "bin/src/logging.rs:20-65", "bin/src/report.rs:27-107", "bin/src/context.rs:49-142"]}
{"id": "C139", "title": "The version a run uses", "statement": "Hooks may change the version of the project while it is built, for example by writing its version file. Each hook is told the version the project has when the hook starts; the PBOs, the name of the key and the name of the archive have the version the project has at the moment they are made, never one that was read before a hook changed it. If only hooks of pre_build change the version, PBOs, key and archive of a release agree. A script that a hook runs is told the version the project has when the script starts. A version that cannot be read is reported.", "quantifier": "for all projects, all hooks and scripts (arbitrary programs over an arbitrary disk, also calling other scripts), all behaviours of the other modules that leave the version alone, with and without signing and archive", "why_tests_cant": "The version is kept in a global between its uses and dropped at certain places; whether some sequence of hooks, scripts and stages sees an outdated one concerns all histories, and a test runs one.", "anchors": ["libs/common/src/config/project/version.rs:17-66", "bin/src/modules/hook/mod.rs:97-135", "bin/src/modules/hook/libraries/project.rs:20-38", "bin/src/modules/hook/libraries/hemtt.rs:80-100", "bin/src/modules/pbo.rs:35", "bin/src/modules/sign.rs:142-157", "bin/src/modules/archive.rs:92-96", "bin/src/executor.rs:55-131"]}
{"id": "C140", "title": "Links in the documentation of a command", "statement": "When the editor shows the documentation of a command, each link that the wiki's text has is shown as one link with its text that leads to the page of the wiki (or to the section of the command's own page), and everything else is shown as it was written.", "quantifier": "all descriptions made of text and of links in each of the wiki's forms, in any number and order, with repetitions", "why_tests_cant": "Descriptions are arbitrary texts, and replacing one link searches through the result of the replacements before it.", "anchors": ["hls/src/sqf/hover.rs:90-134"]}
{"id": "C141", "title": "Code in the documentation of a command", "statement": "When the editor shows the documentation of a command, the code in it (in a line, in a block of its own, or highlighted) is shown exactly as the wiki has it, and so is the text around it.", "quantifier": "all descriptions made of text and code, in any number and order, with repetitions, for all commands", "why_tests_cant": "Descriptions and code are arbitrary texts, and five replacements work one after the other on the results of those before.", "anchors": ["hls/src/sqf/hover.rs:84-134", "hls/src/sqf/hover.rs:161-192"]}
{"id": "C142", "title": "Feature boxes in the documentation of a command", "statement": "When the editor shows the documentation of a command, a feature box of the wiki's text is shown as a heading with the kind of the box and the text of the box, and what is before and behind it is shown as it was written.", "quantifier": "all kinds, texts and surroundings of a box", "why_tests_cant": "Where a box ends depends on all that follows in the description.", "anchors": ["hls/src/sqf/hover.rs:136-159"]}
