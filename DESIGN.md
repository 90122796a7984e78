# Formal model of justhtml in Lean 4 — design

## Method
The Python source in /repo was read as text; nothing was run. Every Lean definition in `lean/Verif/Model/*.lean` cites the file and lines it
models (paths relative to /repo/src/justhtml unless they start with /repo) and every simplification made. Independent specifications (WHATWG
tokenizer states, CSS selector semantics, JS string literals, the refresh steps, CommonMark readers, declarative globs, tree predicates …) live in
`lean/Verif/Spec/*.lean`; they share no helper with the model. Helper lemmas live in `lean/Verif/Lemmas/*.lean`, property theorems (named
`Cnn_…`) in `lean/Verif/Props/*.lean`, each followed by an `example` with a concrete non-trivial case that meets its hypotheses.

Naming: a theorem `Cnn_…_partial` proves part of the property (its comment says what is missing); `Cnn_…_fails` proves the negation of the full
claim with a concrete input, i.e. a defect of the code. Where a claim fails, both are given.

Strings are `List Char` (Unicode scalar values; lone surrogates are outside the model). Exceptions are values (`none`, `Except`, or an error flag
of the parser state). Loops are structural recursions, well-founded recursions, or have fuel; where they have fuel, a theorem shows that it
suffices (C62, C69, C78, C45) or the fuel is the length of the input that each round shortens.

## Trusted base
* Lean 4.33.0's kernel. Axioms: at most `propext`, `Classical.choice`, `Quot.sound`, for every theorem. No axioms of our own, nothing rests on
  compiled code (`decide +kernel` is evaluated by the kernel; it is used only for `example`s and for the witnesses of `_fails` theorems).
* The reading of the Python source, and Python's documented semantics of `str`, `list`, `dict`, `re` on the patterns used.
* The specifications in `Verif/Spec`.
* Facts about Python's Unicode database and libraries that are fields of structures, so every theorem holds for *every* instance with these
  facts: `Uni` (`lower`, `isspace`, `isdigit`, `isalpha`, `isalnum`, `int()` of a digit: their values on ASCII; an ASCII character at the start of a string is lower-cased on its own, every ASCII character leaves its lower case, one that is no letter comes from itself, lower-casing the ASCII letters first changes nothing; `lower` of a non-ASCII character gives
  no ASCII upper case letter, and nothing of the invisible ranges), `UrlEnv` (`urlsplit` may raise on any authority; `isdecimal`, the sign of a density),
  `LinkEnv` (`lower` works piecewise, the IDNA codec leaves ASCII alone, decimal characters are digits), `EntTables` (the entity table: only the names
  that the serializer writes are fixed), `StreamTables` (the element tables of the streaming parser), `SanEnv` (the source text of tags used by
  `escape` handling). Each structure has a concrete instance `….sample`, so none of them is empty.

## What is modelled
| module | source |
|---|---|
| `Py`, `Entities`, `Escape`, `Markup`, `Serialize`, `StartTag` | core/{text,entities,rawtext,doctype,constants}.py, serializer/html.py (compact), parser/scanner.py |
| `Pretty` | serializer/html.py, pretty printing |
| `Markdown` | serializer/markdown.py (text, code, links, block structure as far as C48–C50 need) |
| `Stream` | parser/stream.py, complete |
| `Encoding` | parser/encoding.py: sniffing, prescan, labels (the codecs themselves are not) |
| `Policy`, `Url`, `Css`, `Sanitize` | sanitizer/*.py, the sanitize pipeline of transforms/compile.py and the walker of transforms/runtime.py for it |
| `Report` | the reports of the sanitizer: the calls of `handle_unsafe` in transforms/compile.py, transforms/runtime.py and sanitizer/rawtext.py, and `sanitize_dom` (C99) |
| `Errors` | the scan for parse errors (parser/engine.py `_collect_basic_errors`, `_line_col_at_pos`) and the sort of `doc.errors` (C100) |
| `Glob`, `TextOps` | attribute patterns, whitespace collapsing, text extraction, stripping of invisible characters |
| `DomHeap`, `Tree` | dom/__init__.py: nodes as a heap, all mutating calls and clones |
| `SelParse`, `SelMatch` | selector/core.py: parser, limits, matcher, query with its cache |
| `Linkify` | transforms/linkify.py, linkify_core.py |
| `Transforms` | transforms/{spec,compile,runtime}.py: SetAttrs, Drop, Unwrap, Escape, Empty, Edit, EditAttrs, Decide, RewriteAttrs, DropAttrs, AllowlistAttrs…, CollapseWhitespace, PruneEmpty, DropComments, DropDoctype, stages, fusion of neighbouring transforms, Sanitize in a pipeline (C87–C93) |
| `Builder` | dom/builder.py |
| `Context` | serializer/html.py `to_html(context=…)`, the combined escaping helpers and `clean_url_in_js_string` of parser/__init__.py |
| `BlockText` | dom/__init__.py `to_text(separator_blocks_only=True)` |
| `Construct` | parser/__init__.py `JustHTML(...)` from the input to the tree: choice of the path, the policy, binding of `Sanitize()`, the appended `Sanitize` |
| `Cli` | __main__.py `main` after `argparse` and reading the input: `--allow-tags`, `--cleanup`, `--selector`, `--first`, `--format`, exit codes |
| `Reuse` | sanitizer/policy.py `compile` and the signature, transforms/compile.py `_compile_sanitize_transform` (what a plan keeps) |
| `OpenStack` | the counting stack of parser/engine.py:128-268 |
| `EngBatch` | parser/engine.py:5979-6039, unwrapping removed elements in a batch |
| `EngConst` … `EngMain` | parser/engine.py, the parser itself: text, start and end tags, active formatting elements, adoption agency, foster parenting, templates, foreign content, framesets, fragments, `selectedcontent`, the compiled (sanitizing) and the raw mode, and the final clean-up |

Not modelled: reading files and `argparse` in `__main__.py`, error messages of the parser, `track_node_locations` and the source spans
they record, `_coerce_text_for_xml`, performance shortcuts that the comments of the model name as equal (the caches of the parser's tag tables).

## Fidelity check of the parser model
The model of the parser was evaluated (in the kernel-independent interpreter, outside the proofs) on html5lib-style tree construction cases and on
the input/output pairs that the repository's own tests state: 255 of 255 and 257 of 258 agree (the one difference is a test of XML coercion, which
is not modelled). Every finding about the parser below was found this way or by failing proofs.


## Properties
| id | property | what is modelled | proof | status |
|---|---|---|---|---|
| C01 | Text escaping is lossless and contains no markup | `_escape_text`, `decode_entities_in_text` | induction on the text; the decoder is index-free | proved |
| C02 | Quoted attribute escaping is lossless and contained | `_escape_attr_value`, quote choice, attribute decoding | induction on the value | proved |
| C03 | Serialized start tags read back as the same tag and attributes | `serialize_start_tag`, the attribute reader of the scanner | induction on the attribute list; lemmas for quoted and unquoted values | proved |
| C04 | Unsafe element and attribute names are refused | the name checks of the serializer | case analysis | proved |
| C05 | Comments cannot break out when serialized | comment serialization vs the WHATWG comment states (`Spec/Tokenizer`) | invariant on the tokenizer state | proved |
| C06 | Processing instructions cannot break out when serialized | processing instruction serialization vs the bogus comment state | invariant on the tokenizer state | proved |
| C07 | Doctypes cannot break out when serialized | doctype serialization vs the WHATWG doctype states | invariant on the tokenizer state | proved |
| C08 | Raw text never closes its element | `neutralize_rawtext_end_tag_sequences`, raw text serialization | loop invariant | partial: False when the text is split over several text children (F3, C08_split_text_fails); proved for one text. |
| C09 | Raw text neutralization keeps the rest of the text | the same function | loop invariant | partial: False of the code (F2, C09_text_kept_fails): text before a look-alike end tag is dropped. Proved when every `</name` is a real end tag. |
| C10 | JavaScript string escaping is lossless and contained | `escape_js_string` vs an evaluator of JS string literals (`Spec/Js`) | induction | proved |
| C11 | URL escaping is lossless and uses only URL-safe characters | `url_quote` over UTF-8 bytes | induction, byte-level percent decoding | proved |
| C12 | Compact serialization follows document order | the serializer loop with an explicit stack vs structural recursion | stack invariant | proved |
| C13 | Numeric character references decode totally and safely | numeric references | induction on digits | partial: Decoding is not total: `&#²;` raises (F1, C13_total_fails); total on all other texts. |
| C14 | Text without ampersands is never altered by decoding | `decode_entities_in_text` | induction | proved |
| C15 | Kept URLs use an allowed scheme | URL rule evaluation, and the fast path of the parser | case analysis, string lemmas | proved |
| C16 | Kept URLs contain no control characters or backslashes the browser would reinterpret | the same | case analysis | partial: False for a space inside an allowed scheme with allow_relative=False (F25, C16_spaced_scheme_fails); proved for values without a space. |
| C17 | Host allowlists are enforced | host allowlists | case analysis over the split URL | proved |
| C18 | Strip and proxy handling determine the output | `strip`/`proxy` handling | case analysis | partial: A proxy URL that ends in `#` is accepted, and the original URL is then never sent (F26, C18_empty_fragment_fails). |
| C19 | Every candidate in a srcset is checked | srcset splitting and rebuilding | induction over the candidates | proved |
| C20 | Every item of URL lists is checked | URL lists | induction over the items | proved |
| C21 | The URL fast path agrees with the full URL check | `_fast_safe_url` vs the complete check | case analysis | partial: The two disagree for backslashes and inner spaces (F24); they agree on every other value. |
| C22 | A kept meta refresh only navigates to an approved URL | meta refresh vs the WHATWG refresh steps (`Spec/Url`) | string lemmas | partial: False for a delay that is no number (F9) and for nested quotes (F21); proved otherwise. |
| C23 | Inline styles contain only allowed declarations | inline style sanitizer vs a CSS reader (`Spec/Css`) | per-declaration lemma | partial: False with comments inside CSS strings (F23) and with U+0130 (F22); proved for values without these. |
| C24 | Only allowed elements survive sanitization | sanitizer pipeline over trees | structural induction over the walk | proved |
| C25 | Only allowed attributes survive sanitization | the same | structural induction over the walk | proved |
| C26 | Comments and doctypes are removed when the policy says so | the same | structural induction over the walk | proved |
| C27 | Foreign-namespace content never survives sanitization | the same | structural induction | partial: False with `unwrap`/`escape` handling for a foreign element directly inside a removed one (F7, C27_unwrap_fails); proved for all other trees, and for every tree with `drop`. |
| C28 | Content of dropped elements is gone | the same | structural induction | proved |
| C29 | Unwrapping keeps text in order | the same | structural induction | partial: Everything after a foreign `script` or `style` is lost if no end tag was recorded for it, which for most policies is always so (F74, `C29_trailing_fails`); proved for trees without such elements, without foreign content directly inside removed elements, for unwrap and drop handling without raw text elements. |
| C30 | Sanitization is idempotent | the same | composition of idempotence lemmas per step | partial: False in four cases (F7, F8, F27, F21); proved outside them. |
| C31 | Forced link rel tokens are present | `force_link_rel` | token list lemmas | partial: False for forced tokens with white space (F27); proved for proper tokens. |
| C32 | Raw text elements are inert after sanitization | `harden_rawtext` | induction | partial: Style sheets with comments inside strings escape the check (F28); the rest is proved. |
| C33 | DOM operations keep a well-formed forest | heap model of the DOM, operations as state transformers | inductive invariant over all histories of calls | proved |
| C34 | Failed DOM operations change nothing | the same | case analysis over the calls | proved |
| C35 | Deep clones are equal and independent | `clone_node` | simulation between heap and copy | proved |
| C36 | Unsafe-handling modes | `UnsafeHandler` | induction over histories | proved |
| C37 | Error lists are bounded, sorted and complete up to the bound | error collection | induction, sortedness of the stable sort | proved |
| C38 | Sanitization is on by default and cannot be skipped by listing transforms | construction and the default sanitize step | case analysis | partial: A disabled Sanitize in the list switches sanitizing off (F11, C38_disabled_fails); proved otherwise. |
| C39 | Input encoding is one of a fixed set and never UTF-7 | encoding sniffing | case analysis | proved |
| C40 | Encoding precedence | encoding sniffing, prescan | fuel = length, case analysis | proved |
| C41 | The open-element stack's indexed queries equal a plain scan | counting stack of the parser | representation invariant over all histories | proved |
| C42 | Selector combinators never over-match | selector matcher vs CSS semantics (`Spec/Selector`) | induction on the chain of parts | partial: False inside `:not` for chains that need backtracking or hit the cache (C42_not_fails, C42_cache_fails); proved otherwise. |
| C43 | Selector combinators never under-match | the same | induction on the chain of parts | partial: False for chains that need backtracking (F12, C43_greedy_fails) and because of the shared cache (F33, C43_cache_fails); proved otherwise. |
| C44 | nth expressions | nth arithmetic | integer arithmetic | proved |
| C45 | Selector resource limits hold | limits of the selector parser and matcher | counting invariant in the error/budget monad | proved |
| C46 | Linkify matches are exact, ordered and disjoint | link finder | list induction | proved |
| C47 | Linkify preserves text and only emits safe link schemes | link finder and the href it builds | list induction | proved |
| C48 | Markdown text escaping neutralizes HTML and inline markup | Markdown text escaping vs a CommonMark reader (`Spec/Markdown`) | induction | partial: `!` before a link makes an image of it (F17); the rest is proved. |
| C49 | Markdown code fences cannot be closed by their content | code spans and fences | induction on runs of backticks | partial: False for a span of one line break (F16) and a `\r` inside a quoted `pre` (F18); the rest is proved. |
| C50 | Markdown link destinations are contained | link destinations | induction | partial: False for a final backslash and control characters (F19); the rest is proved. |
| C51 | Attribute glob patterns match by the usual rule | two-pointer glob loop vs a declarative relation | loop invariant | partial: False for attribute names that contain `*` (F15); proved for all others. |
| C52 | Whitespace collapsing is idempotent and only touches whitespace | whitespace collapsing | induction | partial: The pretty printer also removes no-break spaces (F14); the other function is proved. |
| C53 | Streaming parse of serialized output yields exactly the tree's events | `stream()` composed with the serializer | simulation over the serialized output | partial: False for scripts with `<!--<script>` (F4); proved for every other tree. |
| C54 | Policy names are normalized and matched case-insensitively | policy normalisation | case analysis | proved |
| C55 | Invisible characters are stripped completely and only those | `strip_invisible` | induction | proved |
| C56 | ASCII case folding preserves offsets | ASCII folding | induction | proved |
| C57 | Text extraction follows document order | text extraction with an explicit stack | stack invariant | proved |
| C58 | Sanitizing never invents elements | sanitizer pipeline | structural induction: every element of the result comes from one of the source | proved |
| C59 | What the policy allows is kept | sanitizer pipeline | structural induction | partial: False after a foreign `script` or `style` without recorded end tag (F74, `C59_trailing_fails`); proved for trees without one. |
| C60 | DOM containment stays acyclic through template contents | DOM heap with template contents | inductive invariant | partial: False after template contents were inserted elsewhere (F5, C60_template_contents_fails); proved for histories that never do that. |
| C61 | DOM mutations do exactly what they say | DOM heap | effect of each call from the state before | proved |
| C62 | DOM calls always finish | DOM heap, loops with fuel | the fuel suffices in every reachable state | proved |
| C63 | Clones carry the requested attributes | `clone_node` | case analysis | partial: Deep clones ignore `override_attrs` (F29); the rest is proved. |
| C64 | Query results come in document order, once each | `query()` | induction over the walk | proved |
| C65 | The tag-name fast path agrees with the general selector path | tag fast path | equality with the general path | proved |
| C66 | Selectors without combinators are exact | selectors without combinators | exactness in both directions | proved |
| C67 | Arguments of :nth-child and :contains are read as written | arguments of `:nth-child`, `:contains` | parser round trip | proved |
| C68 | Selector text is parsed as the selector it spells | selector parser | a spelling relation; the parser inverts it | proved |
| C69 | Linkify ends and touches only text outside the skip tags | Linkify walk over trees | structural induction | partial: The walk does not end if `a` is not a skip tag (F38, C69_endless_fails); proved otherwise. |
| C70 | What is linked is well-formed | host, domain and e-mail checks | string lemmas | proved |
| C71 | A plain URL between white space is always found | candidate search | string lemmas | proved |
| C72 | The link finder never raises | exceptions of the link finder | case analysis | partial: `1.2.3.²` raises (F10, C72_raises_fails); nothing else does. |
| C73 | Pretty printing only reformats | pretty printer | structural induction against a specification of reformatting (`Spec/Pretty`) | partial: False for text beside other nodes in a hand-made raw text element (F43); proved otherwise. |
| C74 | Pretty printing keeps word boundaries | pretty printer | counterexamples; induction for text-only elements | partial: False in general (F41, F42); proved for elements with only text. |
| C75 | Default parsing yields only allowed elements | the parser (`Eng*`) | step relation + inductive invariant over all steps of a parse, then over the final clean-up | partial: False for inputs with `<selectedcontent` (F49, C75_select_fails); proved for all other inputs: documents, and fragments in every context and namespace (the context element itself is shown to be gone at the end), also for custom policies (`C75_policy_partial`). |
| C76 | Default parsing yields only allowed attributes | the parser | the same, with an invariant on attributes | partial: False for a link inside SVG that the adoption agency copies (F44, C76_adopted_fails); proved for inputs without `<svg`, `<math`, `<selectedcontent`. |
| C77 | Default parsing yields no comments, and fragments no doctype | the parser | every node made has an allowed kind; copies keep kinds | proved |
| C78 | The parser reads its whole input and stops | the parser | every round returns a proper suffix of what it got | proved |
| C79 | Default parsing yields only harmless addresses | the parser | attribute invariant + the URL theorem C15 | partial: False for the same input as C76 (F44, C79_adopted_fails); proved for inputs without `<svg`, `<math`, `<selectedcontent`. |
| C80 | The parser makes up no elements | the parser | step relation: the name of every node is that of an old node, an implied one, or was read behind a `<` of the input | proved |
| C81 | Writing a tree and parsing it again gives the same tree | the parser (`Eng*`) and the serializer | an invariant of parser states in ordinary content (`Flow`), one lemma for each kind of step (text, comment, start tag, end tag), then induction over the forest; `Spec/RoundTrip` says what ordinary content is | partial: False for `pre` with a leading line feed, for comments starting with `!>` and for boolean attributes equal to their name (F50-F52, C81_pre_fails, C81_comment_fails, C81_boolean_fails); proved for ordinary content. |
| C82 | Sanitizing what is already clean changes nothing | the same parser with the default policy | the steps of C81 for the compiled functions of the sanitizing parser (`Lemmas/EngFlowSafe`); plain links pass the fast URL check unchanged (`Props/EngUrlIdem`); for `C82_stable`, every checked value is given back by a second check (fast and slow path), together with C75, C76, C77 and C83 | proved: `C82_stable` excludes inputs with `<svg`, `<math`, `<selectedcontent` and `<noframes`, for which the policy itself fails or is not proved. As in C81 the nesting conditions cover ordinary content only. |
| C83 | Default parsing leaves nothing invisible | the same parser with the default policy | every primitive change that brings in or changes text carries the proof that nothing invisible comes in (`Step`, `Vis`), kept through the last steps of the parse (`Lemmas/EngVis`); attributes from C76 | partial: False for attributes in inputs with SVG (F44). Texts: the tag `noframes` is excluded, because its text is not filtered in a frameset with foreign content; whether such a state can be reached is open. |
| C84 | Drop removes exactly what it matches | the pipeline (`Model/Transforms`): transform specifications, their compilation, the walker and the bulk path; the tree as `Node`; selectors as oracles that look at the element itself (`OwnSel`) | the walker is computed exactly for operations that look at the node only (`Lemmas/Walk`: `walk_exact`), the bulk path by recursion on the tree | proved: Selectors that look at the surroundings are not covered. Elements have names that can be written in markup. |
| C85 | Unwrap removes the element and keeps what it contains | the same pipeline | `walk_exact`, and a comparison of what the walker computes (`peelL`) with the specification | partial: False for matches directly inside matches (F54): `C85_nested_fails`; without them it is exact. The text is kept in any case. |
| C86 | SetAttrs sets the given attributes and nothing else | the same pipeline | `walk_exact` for the shape; dict lemmas for the values | partial: A value-less attribute (`None`) that is missing is not added (F57): `C86_boolean_fails`. |
| C87 | Empty, Escape and Decide do to each element what was asked, and to nothing else | the same pipeline; the texts of tags are read from the source by an oracle | `walk_exact`; replaced nodes continue with the same transform, so what is hoisted is decided upon | proved: For `*` the callback must keep what is not an element. |
| C88 | Attribute transforms change exactly the attributes they name | the attribute functions of the compiler (`dropAttrsFn`, `allowlistAttrs`, `mergeTokens`) and the walker | `walk_exact` for the shape, dict lemmas and C51 for the contents | partial: Attribute names in lower case and not blank, as the parser makes them; otherwise names are rewritten: `C88_case_fails`. |
| C89 | DropComments, DropDoctype and DropForeignNamespaces remove one kind of node | the same pipeline | `walk_exact`; for foreign content an induction that carries that the context is never foreign | partial: DropForeignNamespaces also removes all following siblings of a foreign element that contains a `script` or `style` whose end tag was not recorded: `C89_foreign` is exact, `C89_trailing_fails` the limit (F74). |
| C90 | PruneEmpty removes exactly the empty elements, from the inside out | the same pipeline; the pruning pass of `apply_compiled_transforms` | mutual structural induction over the tree: the pass equals the function of the specification that prunes children first | partial: The selectors are assumed to match no doctypes (`C90_doctype_fails`, F58). |
| C91 | CollapseWhitespace leaves single spaces between words and changes nothing else | the same pipeline; `_collapse_html_space_characters`, trimming at block edges and after spaces | the walk over texts is compared with a specification (`Spec/Collapse`) that reads the neighbours from the source tree; structural induction | proved: Not idempotent (F56, `C91_not_idempotent`), which the property does not claim. |
| C92 | Transforms in a pipeline work one after the other | specifications with stages, the splitting into stages, flattening, merging of neighbours, the run over compiled transforms | each node-by-node transform realizes a local action; the walk of several is their composition (`walk_local`); stages by induction over the list of stages | partial: Proved for the transforms in `OneByOne`. False for transforms that hoist contents (F53, `C92_unwrap_fails`), for neighbouring decisions with one selector (F55, `C92_decide_fails`) and neighbouring edits of attributes with a selector that looks at attributes (F59, `C92_edit_fails`). |
| C93 | A pipeline that ends with Sanitize is safe whatever comes before it | the same pipeline | the last walk of such a pipeline is a sanitizing walk, for which C24 to C26 hold with any operations before | proved: Transforms after `Sanitize` can put anything back (`C93_order_matters`). |
| C94 | Every parse yields a finite tree whose pointers agree | the parser of C75 to C83: the list of nodes with `children`, `parent` and `template_content` at the end of the run | an invariant of every primitive change (`Tidy`: links agree and are ranked, the stack of open elements is ordered by depth, formatting entries are never the shell), kept by every step of the parser, and a weaker one (`Proper`) kept by the last steps | proved: Not claimed: that the `parent` of the root is `None`. A context with the internal namespace `justhtml-parser-only` is excluded. The model puts a new node only under an older one (`St.older`), as in Python the new object cannot be known elsewhere yet. `C94_tree_policy`: custom policies that allow `input`, `option` or `selectedcontent` are outside the claim. |
| C95 | The shorthand of element() is read exactly as documented | Model/Builder (`parseElementName`, with the positions of the scanner as the rest of the text) | both directions by splitting the text at the first character of each kind; induction over the attributes | proved: a regular expression of the serializer ends with `$`, so the specification of an attribute name allows one line feed at its end (F61) |
| C96 | element() builds what it is given, or raises; what it builds can be written | Model/Builder (`buildElement`), Model/Serialize. Values of attributes have been through `str`; child nodes are trees of their own | the stack loop of `_flatten_children` against a recursive specification; `Built` is inductive, serialization by induction over it | proved: names are compared as they are, so `id` and `ID` count as different (F60) |
| C97 | A URL returned by clean_url_value opens only what the rule allows | Model/Url (`cleanUrlValue`), Model/Context (`cleanUrlJs`), Spec/Url and Spec/UrlOpen (how a browser finds scheme and host, the host percent-decoded) | percent-encoding commutes with every split a browser makes, because the separators are kept and every other character becomes `%` and digits; then C15-C17 for the value before encoding | partial: a text that already contains percent escapes is encoded again (F62), and so is the target of a proxy URL (F63): the meaning is not preserved. `C97_unescaped_attribute_fails` records that the documented `escape_attr_value` step is necessary (F64) |
| C98 | to_html(context=...) and the combined escaping helpers are read back exactly | Model/Context (`toHtmlContext`, `escapeTextJs`, `escapeUrlJs`, `escapeAttrCall`) | composition of C01, C02, C10, C11 and C57 | proved |
| C99 | Nothing is removed silently, and there are no false alarms | Model/Report: the walk of Model/Sanitize with the calls of `handle_unsafe` in their order, the raw text pass, `sanitize_dom` with its handler. Findings without source positions | the findings as a recursive function on the tree (`reps`), by the same induction as for the tree itself; then structural induction for each claim | partial: False after foreign `script` and `style`: what follows them is removed without a report (F74, `C99_trailing_fails`). False for single declarations of a style of which others survive (F65, `C99_style_declarations_fails`), for attributes with a blank name (F66, `C99_blank_name_fails`) and for comments in escape mode, which become text (F67, `C99_escaped_comment_fails`). Rewritten URLs, normalized styles and the forced `rel` are changes that are never reported; `KeptAttrs` says what may change. |
| C100 | Collected errors stand at real places and count the tags right | Model/Errors: the scan of `_collect_basic_errors` with `_emit_error`, the table of line starts, and the sort of `doc.errors`. Messages and errors of transforms (C99) are not included | the table of line starts against a walk over the characters; the open tags with their index of positions stand for a plain list (`Stands`), and the scan of a sequence of pieces is computed by induction; the markup of a tree is such a sequence | partial: The scan knows no raw text, no CDATA and no attribute names with quotation marks: `C100_raw_fails` (F68), `C100_quote_fails` (F69). NULs are counted first, so with a limit the first error can be missing (F70, `C100_first_fails`). `---!>` does not end a comment (F71, `C100_comment_fails`). `C100_unfinished` leaves out inputs with `İ`, where the code goes on after the wrong number of characters. |
| C101 | A policy object can be edited and used again; every call follows the policy as it stands | Model/Reuse: a policy object with its fields and its cached plan, the signature, what a plan copies and what it refers to, and the constructor (Model/Policy) | an invariant over histories: the cached plan was made from fields with the cached signature; equal signatures give plans that sanitizing cannot tell apart (sorted lists are permutations; dict lookups; congruence of the walk) | partial: Proved for tidy fields (lower-case names, CSS properties listed if `style` is allowed). An edit is not normalized and the comparison ignores case (F72, `C101_case_fails`); an edit may allow `style` without CSS properties, which the constructor refuses (F73, `C101_style_fails`). For any edits, `C101_never_more` |
| C102 | Transforms that only remove keep a sanitized tree safe | Model/Transforms (all of compile_transforms and apply_compiled_transforms), Model/Sanitize | induction over the compiled transforms and the walks: every node of the result that is no text is, but for its contents, a node of the tree before; sanitize ends the fused walk, so what comes after runs on the sanitized tree | proved: Decide callbacks that unwrap or escape hand-made objects named like a text node (`#…`) are excluded; no parser makes them |
| C103 | to_text(separator_blocks_only=True) separates blocks, never inline text | Model/BlockText: the stack loop with enter and exit entries, all of `to_text` | the stack stands for a list of texts and line ends; invariant of the loop; then induction on the list | partial: Text inside a `br` element, which only trees built by hand have, is lost (F75, `C103_br_fails`) |
| C104 | JustHTML(html, policy=P) keeps the promises of P on every input | Model/Construct: the constructor with its three paths; the parser of C75-C83 and the transforms of C84-C93 and C102 put together | the root stays a document or fragment through the run of the parser (`EngRootKeep`); names the parser makes are proper (from C80); then C93, C102 and the sanitizer theorems | proved: Except the compiled path (default policy, no transforms), whose theorems are C75, C76 and C79. With transforms before `Sanitize`, elements named like a text node (`#...`), which only callbacks can make, are exempt. A disabled `Sanitize` counts as one (F11). |
| C105 | The command line: exit codes, what is written, and safety of the output | Model/Cli: `main` from the parsed options and the decoded input to the exit code and the written text; selectors and the errors of a strict parse are given by an arbitrary oracle (selectors are modelled in SelParse and SelMatch) | C104 for the tree, C102 for what removing transforms keep, C92 and C90 for the pruning, and list induction for the rendering | partial: Partial: `--cleanup` leaves links without an address that stand in links without an address (C105_links_fails, F76). Reading files, `argparse`, `--version` and decoding errors are outside the model. Without `--allow-tags` and `--cleanup` the tree is that of the compiled parser (C105_plain), whose safety is C75, C76 and C79. |
| C106 | Sanitized markup parsed again has no new elements (mutation XSS) | the serializer (Serialize, Markup, StartTag), the parser (Eng*) and the constructor (Construct); the specification of plain names is Spec/Reparse | every `<` of the markup of a plain tree begins an end tag, a doctype or the start tag of one of its elements (induction over the tree, with C01 and C02 for texts and values); C80 says that a parse invents no names; C104 and C75-C77 give plain trees | proved: The elements whose text is written as it is (`script`, `style`, `iframe`, `noembed`, `noframes`, `plaintext`, `xmp`) are excluded, as are comments and doctype names with `<`. For attributes see C107. |
| C107 | Sanitized markup parsed again has no new attributes and no new addresses (mutation XSS) | the serializer, the parser and the constructor, as for C106; the specification is Spec/Reparse (`AttrsAfter`, `asRead`, `AttrsAgain`) | an invariant of the engine: every attribute of an HTML element, and of every entry for a formatting element, is read from a start tag with the name of that element (EngAttr); every `<` of the markup begins a tag of the tree, so the scanner reads exactly the attributes that the serializer wrote (EngWritten: the three ways of writing one, escaped values decode to themselves); reading a URL again gives it no new scheme and no host (UrlRead); C104 and C75-C79 give the trees | proved: Excluded as in C106, and trees with `svg` or `math`, whose attributes are adjusted. Fragments are covered in the default context and in `html`. |
| C108 | Proxy handling sends exactly the URLs that would be kept, each as the one parameter of its name | the constructors UrlProxy and UrlPolicy and `parse_qsl` (Model/Url: `validProxy`, `newUrlPolicy`, `parseQsl`), the URL check as in C15-C22; the specification is Spec/Form (a form reader, `OddPrefix`) | the code's reading of a query is the form reader's; a quoted name and value contain no separator and read back as themselves; the check with proxy handling goes through the same tests as with allow | proved: Proxy URLs with a `#` are excluded (C18_empty_fragment_fails). |
| C109 | How many elements the policy removes does not change the tree: the batch is the same as one by one | Model/EngBatch (the batch with its list of holders, its nesting test and its loop) beside Model/EngMain `unwrapAll` (one by one) | a view of the nodes as children and parents; every move of either way is one replacement of a removed child by its children; whatever the order, the children of a node that stays expand to the same list (`View.Chain.agree`), and both ways end without removed children; the removed nodes' parents are alive because without `template` the parser makes no node of its own | partial: Missing: inputs with a template tag that the policy does not allow. There the parser keeps the template as a node of its own outside the tree, whose list of children is not updated when they move; 9000 random inputs of that sort showed no difference. |
| C110 | Text does not begin a Markdown block | Model/Markdown (`mdEscapeText`, `mdLineStart`, `MdB.textF`, `mdVisit`) against Spec/MdBlock, which lists what begins a block after CommonMark 0.31 | the text at a line start is the escape of the first line followed by the collapsed rest (`textF_at`); a line the code escapes begins with a backslash or digits and a backslash, which begins no block; a line it does not escape is followed back through escaping and collapsing to the text, where the code's own test of that marker would have fired (`line_plain`); paragraphs by induction on their number | partial: Missing: texts with line breaks, form feeds or carriage returns, and the lines in `Overlooked` (two to six `#`, a lone bullet or number, `--`): there the claim is false (`C110_fails`, `C110_split_fails`, `C110_item_fails`). |
| C111 | Markdown has the words of the text | Model/Markdown (`mdVisit`, `mdItems`, `MdB.textF`, `raw`, `newline1`, `ensure`, `finish`) against Spec/MdFlow (the text as it flows), the words of Spec/Pretty and the CommonMark escapes of Spec/Markdown | an invariant of the builder through the walk (`Reads`): what is written, with the pending space, reads as the flow so far, can be read on its own, and ends either in something that is not blank or at a line start; texts that stand for the same words form a congruence (`Same`), so each collapsed space and absorbed line break is one step | partial: The content of emphasis or a link has a builder of its own with a second invariant (`ReadsI`: its text is white space, or white space, a core on one line, and white space again, which the flags `lead` and `pend` record); `em_gen` and `link_gen` put it back in a place of either kind. Missing: emphasis and links over a line break (`C111_em_fails`), addresses with other characters (C50 covers how they are written), quotes, code and images. Text in a list outside its items is not written (`C111_list_fails`), and the specification leaves it out. |

Properties that cannot be expressed: none.

## Findings: behaviour of the code that contradicts the promise
Each finding with a theorem has a concrete witness proved in `Verif/Props`.

| id | finding | theorem |
|---|---|---|
| F1 | `&#²;` makes entity decoding raise `ValueError` (`isdigit` vs `int`) | C13_total_fails |
| F2 | raw text neutralization drops the text before a look-alike end tag such as `</scriptx` | C09_text_kept_fails |
| F3 | an end tag split over two text nodes of a raw text element is not neutralized | C08_split_text_fails |
| F4 | a script with `<!--<script>` is not closed by its own end tag when read back | C53_script_comment_fails |
| F5 | a template can be put into its own contents | C60_template_contents_fails |
| F6 | name checks with `$` accept a trailing line feed (not exploitable: other checks refuse it) | – |
| F7 | children of unwrapped/escaped elements skip the foreign-element check of the sanitizer | C27_unwrap_fails, C30_hoisted_fails |
| F8 | `escape` keeps the invisible characters of comments | C30_comment_fails |
| F9 | meta refresh: only the URL after the first `;` is checked | C22_prefix_fails |
| F10 | Linkify raises on `1.2.3.²` | C72_raises_fails |
| F11 | a disabled `Sanitize` in `transforms` switches the default sanitizing off | C38_disabled_fails |
| F12 | selector matching does not backtrack: `p > b u` misses matches | C43_greedy_fails, C42_not_fails |
| F13 | Markdown: `<table>` passed through with a blank line inside ends the HTML block | – |
| F14 | the pretty printer collapses no-break spaces | C52_pretty_collapse_fails |
| F15 | the glob `on*` does not match the attribute `on*click` | C51_star_in_name_fails |
| F16–F19 | Markdown: blank code span, `!` before a link, `\r` in quoted code, final backslash and control characters in destinations | C49_blank_span_fails, C48_bang_link_fails, C49_quoted_cr_fails, C50_backslash_fails, C50_control_fails |
| F20 | two collecting policies in one pipeline share their error list | – |
| F21 | meta refresh: nested quotes | C22_nested_quote_fails, C30_refresh_fails |
| F22, F23 | inline styles: offsets of the lower-cased value (U+0130); comments inside CSS strings | C23_offset_fails, C23_comment_fails |
| F24 | the URL fast path keeps backslashes and spaced slashes | C21_backslash_fails, C21_space_fails |
| F25 | a space inside a scheme is read as a relative reference | C16_spaced_scheme_fails |
| F26 | a proxy URL ending in `#` never receives the original URL | C18_empty_fragment_fails |
| F27 | forced `rel` values with white space are added again and again | C31_spaced_token_fails, C30_rel_fails |
| F28 | style sheets: `/*` inside a string hides `url()` | C32_style_comment_fails |
| F29 | `clone_node(deep=True, override_attrs=…)` ignores the argument | C63_deep_clone_override_fails |
| F30 | attributes of documents and fragments are not cloned; `insert_before(x, x)` returns silently | – |
| F31, F32 | selectors: the doctype counts as an element for sibling counting; class tokens are split at Unicode white space | – |
| F33 | `query("div div")` returns nothing on nested `div`s: the matching cache is shared between both sides of the combinator | C43_cache_fails, C42_cache_fails |
| F34–F36 | selectors: An+B with tabs, `:contains(")")`, `a,,b` accepted | – |
| F38 | Linkify does not end if `a` is not among the skip tags | C69_endless_fails |
| F39, F40 | Linkify: trailing `"`; top-level domains with U+017F/U+0131 | – |
| F41, F42 | the pretty printer joins and splits words | C74_words_joined_fails, C74_words_split_fails, C74_edges_fails |
| F43 | raw text elements made by hand with mixed content are written with character references | C73_raw_mixed_fails |
| **F44** | **sanitizer bypass in default parsing:** the attributes of an `a` inside SVG are not sanitized, and the adoption agency copies them to an HTML element | C76_adopted_fails, C79_adopted_fails |
| F45 | `<a><table><tr><td><a>x<a>y</table>z`: the outer `a` is removed from the open elements | – |
| F46 | the one-pass attribute scanner keeps the last duplicate, skips `=`, and does not normalise `\r`/NUL, unlike the raw parser | – |
| F47, F48 | adoption bookmark moved by retired entries; `<pre><!--c-->` + line feed drops the line feed | – |
| **F49** | **sanitizer bypass in default parsing:** copies made for `<selectedcontent>` of copies are not recorded for unwrapping | C75_select_fails |
| F50 | `<!--!>` is taken for a complete comment, so a comment that starts with `!>` is written as markup that re-parses as live markup | C81_comment_fails |
| F51, F52 | `<pre>` + line feed, and boolean attributes equal to their name, do not survive writing and parsing | C81_pre_fails, C81_boolean_fails |
| F53 | children hoisted by `Unwrap`, `Escape` or a deciding callback skip all earlier transforms of the same walk: `[Drop("script"), Unwrap("div")]` leaves the `script` of `<div><script>` | C92_unwrap_fails |
| F54 | `Unwrap("b")` leaves a `b` that is directly inside an unwrapped `b` | C85_nested_fails |
| F55 | two neighbouring `Decide` with the same selector are chained: after the first says `EMPTY` the second is not asked | C92_decide_fails |
| F56 | `CollapseWhitespace` is not idempotent: `<div>a <!--c--> </div>` keeps a space at the end that a second pass removes | C91_not_idempotent |
| F57 | `SetAttrs` does not add a missing attribute without value | C86_boolean_fails |
| F58 | the selector `*` matches the doctype, so `PruneEmpty("*")` removes it | C90_doctype_fails |
| F59 | two neighbouring `EditAttrs` (`DropAttrs`, ...) with the same selector are merged: the second is applied although the element no longer matches | C92_edit_fails |
| F60 | `element("p[ID=x]", {"id": "y"})` is not refused, although the attribute is written twice and a parser keeps one | example in Props/Builder |
| F61 | a name that ends with a line feed passes the check of attribute names (`$` in the regular expression) | C95_shorthand (specification), example in Props/Builder |
| F62 | `clean_url_value` percent-encodes the `%` of escapes already in the URL: `https://x/a%20b` becomes `https://x/a%2520b` | C97_meaning_fails |
| F63 | `clean_url_value` with a proxy rule encodes the target twice: the proxy gets `https%3A%2F%2Fx%2Fy` after decoding its parameter | C97_proxy_fails |
| F64 | the value returned by `clean_url_value` may decode, as raw attribute text, to `javascript:` (`&amp;#106avascript:`); the documentation asks for `escape_attr_value`, so this is documented | C97_unescaped_attribute_fails |
| F65 | declarations of a `style` that the policy does not allow are removed without a finding if another one is allowed: `style="color:red;position:fixed"` becomes `color: red`, and `raise` does not raise | C99_style_declarations_fails |
| F66 | an attribute whose name Python's `strip` empties (a vertical tab, a no-break space) is removed without a finding | C99_blank_name_fails |
| F67 | with `disallowed_tag_handling="escape"` comments become visible text without a finding | C99_escaped_comment_fails |
| F68 | the scan for errors takes the content of `script`, `style`, `title`, `textarea` … for markup: `<script>x = "</b>"</script>` is an `unexpected-end-tag`, and `strict=True` rejects a valid document | C100_raw_fails |
| F69 | a quotation mark in CDATA (`<![CDATA[it's]]>`) or in an attribute name makes the scan take the rest of the input for one tag: `eof-in-tag` for complete markup, and all other errors are missed | C100_quote_fails |
| F70 | NUL characters are reported before everything else and use up `max_errors`, so `strict` may raise an error that is not the first | C100_first_fails |
| F71 | a comment is not ended by `---!>` (in HTML it is): the text up to the next `-->` is taken into the comment | C100_comment_fails |
| F72 | names in an edited policy are not normalized, but the check for changes ignores case: `drop_content_tags` edited from `script` to `SCRIPT` works if the policy was used before, and is ignored if it was not | C101_case_fails |
| F73 | a policy edited to allow `style` while `allowed_css_properties` is empty (the constructor raises for it) keeps every inline style unchecked | C101_style_fails |
| F74 | the sanitizer drops all siblings after a foreign element with a `script` or `style` inside that has no end tag; but end tags are recorded only when tag spans are tracked (escape mode, `track_node_locations`). For every other custom policy `<svg><style></style></svg><p>hello</p>` becomes empty: allowed content after a *closed* SVG style is lost, and not reported | C29_trailing_fails, C59_trailing_fails, C89_trailing_fails, C99_trailing_fails |
| F75 | `to_text(separator_blocks_only=True)` loses text inside a `br` element (in trees built by hand), which `to_text()` keeps | C103_br_fails |
| F76 | the command `justhtml --cleanup --fragment` leaves a link without `href` that the parser or the sanitizer left inside another: `<p><a>x<object><a>y</a></object></a></p>` becomes `<p>x<a>y</a></p>` (from F54) | C105_links_fails |
| F77 | `to_markdown()` escapes a single `#` at a line start but not `##` to `######`: the text `## x` becomes a heading | C110_fails |
| F78 | in `to_markdown()` a list or heading marker followed by a line break is not escaped, and the break is then written as a space: the text `-`, newline, `x` becomes the list item `- x`, and so do `1.` and `#` | C110_fails |
| F79 | in `to_markdown()` a text that is only a marker (`-`, `+`, `1.`, `1)`) becomes an empty list item, and a line `--` after a `<br>` makes the line above a heading | C110_fails |
| F80 | in `to_markdown()` a marker split between two text nodes is not escaped: `<p>1<span>. x</span></p>` becomes the list item `1. x` | C110_split_fails |
| F81 | in `to_markdown()` the text of a list item is never escaped for what it begins: `<li># b</li>` becomes an item that holds a heading, `<li>- b</li>` an item that holds a list | C110_item_fails |
| F82 | `to_markdown()` leaves out everything in a list that is not in an `li`: `<ul>a<div>b</div></ul>` becomes the empty text (`Spec.mdFlowItems` says so too) | C111_list_fails |
| F83 | emphasis over a line break loses its marks, and what stands directly before it is split off as a paragraph: `<p>a<em>b<br>c</em></p>` becomes `a`, an empty line, `b`, `c` | C111_em_fails |

## Testing the theorems
`seeded/LOG.jsonl` lists the edits made to the model in a scratch copy, the claim each breaks, and the theorems that then fail.
