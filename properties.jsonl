{"id": "C01", "title": "Text escaping is lossless and contains no markup", "statement": "For every text string, the escaped form that to_html() writes for an ordinary text node contains no '<' and no '>', and decoding it with the library's own character-reference decoder gives back exactly the original string.", "quantifier": "every text string (any length, any Unicode scalar values), every named-entity table that maps amp/lt/gt correctly", "why_tests_cant": "infinitely many strings; interactions such as '&' followed by text that looks like an entity cannot be enumerated", "anchors": ["src/justhtml/serializer/html.py:_escape_text,_escape_html_chars", "src/justhtml/core/entities.py:decode_entities_in_text"]}
{"id": "C02", "title": "Quoted attribute escaping is lossless and contained", "statement": "For either quote character, the escaped attribute value contains neither that quote nor '<' nor '>', and decoding it in attribute mode returns exactly the original value.", "quantifier": "every attribute value string and both quote characters", "why_tests_cant": "legacy semicolon-less entities and attribute-specific decoding rules give an unbounded family of interacting inputs", "anchors": ["src/justhtml/serializer/html.py:_escape_attr_value,_choose_attr_quote", "src/justhtml/parser/__init__.py:escape_attr_value", "src/justhtml/core/entities.py:decode_entities_in_text"]}
{"id": "C03", "title": "Serialized start tags read back as the same tag and attributes", "statement": "If serialize_start_tag does not raise, scanning its output with the library's own start-tag attribute scanner consumes exactly the serialized tag and yields the same attribute names (ASCII-lowercased) and values, under every combination of quoting options.", "quantifier": "every tag name, attribute list and option combination accepted by the serializer", "why_tests_cant": "attribute values and names are unbounded; an injection needs only one crafted combination", "anchors": ["src/justhtml/serializer/html.py:serialize_start_tag", "src/justhtml/parser/scanner.py"]}
{"id": "C04", "title": "Unsafe element and attribute names are refused", "statement": "serialize_start_tag/serialize_end_tag raise for every element name that does not start with an ASCII letter or contains whitespace, '/' or '>' (other than one trailing newline), and for every attribute name that is empty or contains whitespace, '/', '>' or '='.", "quantifier": "every name string", "why_tests_cant": "names are unbounded strings", "anchors": ["src/justhtml/serializer/html.py:_validate_serializable_tag_name,_validate_serializable_attr_name"]}
{"id": "C05", "title": "Comments cannot break out when serialized", "statement": "For every comment data, an HTML tokenizer reading '<!--' + data as serialized + '-->' + rest ends the comment exactly at the serializer's '-->' and not earlier or later; the serializer terminates on every input.", "quantifier": "every comment data string and every following text", "why_tests_cant": "the comment tokenizer has ten states; a breakout is a specific character sequence in an unbounded string", "anchors": ["src/justhtml/serializer/html.py:_serialize_comment_data"]}
{"id": "C06", "title": "Processing instructions cannot break out when serialized", "statement": "For every processing-instruction data, an HTML tokenizer reading the serialized '<?...?>' followed by any text ends the bogus comment exactly at the final '>' of the serialization.", "quantifier": "every data string and every following text", "why_tests_cant": "unbounded strings", "anchors": ["src/justhtml/serializer/html.py:_serialize_pi_data"]}
{"id": "C07", "title": "Doctypes cannot break out when serialized", "statement": "For every doctype name, public id and system id, the serialized doctype is a single token: an HTML tokenizer ends it exactly at its final '>'.", "quantifier": "every (name, public id, system id), including absent ones", "why_tests_cant": "unbounded strings in three fields", "anchors": ["src/justhtml/serializer/html.py:_serialize_doctype,_safe_doctype_name"]}
{"id": "C08", "title": "Raw text never closes its element", "statement": "The text written for a raw-text element (script, style, iframe, xmp, noembed, noframes) contains no case-insensitive '</name' followed by whitespace, '/', '>' or end of text, whatever the text was.", "quantifier": "every text and every lower-case element name", "why_tests_cant": "neutralization is a scan with shifting offsets; overlapping near-matches are unbounded", "anchors": ["src/justhtml/core/rawtext.py:neutralize_rawtext_end_tag_sequences", "src/justhtml/serializer/html.py:_serialize_text_for_parent"]}
{"id": "C09", "title": "Raw text neutralization keeps the rest of the text", "statement": "Neutralizing raw text only replaces the '<' of offending end-tag sequences by '&lt;' and leaves every other character in place; text without an offending sequence is returned unchanged.", "quantifier": "every text and element name", "why_tests_cant": "needs inputs mixing near-matches and real matches in every order", "anchors": ["src/justhtml/core/rawtext.py:neutralize_rawtext_end_tag_sequences"]}
{"id": "C10", "title": "JavaScript string escaping is lossless and contained", "statement": "For every value and quote, the escaped string contains no raw quote, newline, carriage return, '<', '>', U+2028 or U+2029, every backslash starts a valid escape, and evaluating it as a JavaScript string literal body returns the original value.", "quantifier": "every string and both quote characters", "why_tests_cant": "unbounded strings; adjacency of backslashes and quotes", "anchors": ["src/justhtml/serializer/html.py:_escape_js_string", "src/justhtml/parser/__init__.py:escape_js_string"]}
{"id": "C11", "title": "URL escaping is lossless and uses only URL-safe characters", "statement": "escape_url_value output consists only of unreserved characters, the documented separators and percent-triplets, and percent-decoding it as UTF-8 returns the original value; the HTML-attribute form additionally contains no bare '&'.", "quantifier": "every string", "why_tests_cant": "unbounded strings over all Unicode scalar values", "anchors": ["src/justhtml/serializer/html.py:_escape_url_value,_escape_url_value_for_html_attr"]}
{"id": "C12", "title": "Compact serialization follows document order", "statement": "to_html(pretty=False), an explicit-stack loop, terminates on every finite tree and writes exactly: start tag, serialized children left to right (template content for templates), end tag; void elements get no children and no end tag.", "quantifier": "every finite DOM tree", "why_tests_cant": "trees have unbounded depth and width; the loop mixes nodes and end markers on one stack", "anchors": ["src/justhtml/serializer/html.py:_node_to_html_compact"]}
{"id": "C13", "title": "Numeric character references decode totally and safely", "statement": "Every run of ASCII digits or hex digits decodes to some character; the result is never NUL, never a surrogate, never above U+10FFFF, and equals the WHATWG replacement mapping, no matter how long the digit run is. No input makes decoding fail.", "quantifier": "every digit string, decimal and hexadecimal", "why_tests_cant": "digit strings are unbounded, and Python's isdigit() accepts characters int() rejects", "anchors": ["src/justhtml/core/entities.py:decode_numeric_entity,decode_entities_in_text"]}
{"id": "C14", "title": "Text without ampersands is never altered by decoding", "statement": "Character-reference decoding returns its input unchanged when it contains no '&', and in general only replaces segments beginning with '&'; it terminates on every input.", "quantifier": "every text, both modes", "why_tests_cant": "unbounded", "anchors": ["src/justhtml/core/entities.py:decode_entities_in_text"]}
{"id": "C15", "title": "Kept URLs use an allowed scheme", "statement": "If a URL value is kept by a URL rule, then after removing the characters browsers ignore, either it has no scheme (and is a permitted relative/fragment/protocol-relative reference) or its lower-cased scheme is in the rule's allowed_schemes.", "quantifier": "every URL string and every rule", "why_tests_cant": "scheme smuggling uses control characters, entities and case in unbounded combinations", "anchors": ["src/justhtml/sanitizer/url/core.py:_sanitize_url_value_with_rule"]}
{"id": "C16", "title": "Kept URLs contain no control characters or backslashes the browser would reinterpret", "statement": "A value kept by a URL rule contains no ASCII control character or newline inserted into it, and protocol-relative and fragment references are only kept when the rule permits them.", "quantifier": "every URL string and every rule", "why_tests_cant": "unbounded strings", "anchors": ["src/justhtml/sanitizer/url/core.py"]}
{"id": "C17", "title": "Host allowlists are enforced", "statement": "With a non-empty allowed_hosts, every kept absolute or protocol-relative URL has a host in that list.", "quantifier": "every URL and every rule with allowed_hosts, for any URL splitter", "why_tests_cant": "host parsing has many spellings (userinfo, ports, case, backslashes)", "anchors": ["src/justhtml/sanitizer/url/core.py"]}
{"id": "C18", "title": "Strip and proxy handling determine the output", "statement": "A rule whose handling is strip never keeps a non-fragment remote URL; with proxy handling every kept remote URL is the proxy URL followed by the percent-encoded original, from which the original is recoverable.", "quantifier": "every URL and every rule", "why_tests_cant": "unbounded", "anchors": ["src/justhtml/sanitizer/url/core.py"]}
{"id": "C19", "title": "Every candidate in a srcset is checked", "statement": "If a srcset value is kept, every candidate URL a browser would extract from the output is one the URL rule approved; if any candidate is rejected the whole attribute is dropped.", "quantifier": "every srcset string and URL rule", "why_tests_cant": "srcset grammar has commas inside URLs and descriptors", "anchors": ["src/justhtml/sanitizer/url/srcset.py"]}
{"id": "C20", "title": "Every item of URL lists is checked", "statement": "For space- or comma-separated URL attributes, the value is kept only if each item is approved by the rule, and the output items are exactly the approved values.", "quantifier": "every attribute value and rule", "why_tests_cant": "unbounded lists", "anchors": ["src/justhtml/sanitizer/url/"]}
{"id": "C21", "title": "The URL fast path agrees with the full URL check", "statement": "Whenever the streamlined URL check used while parsing gives an answer, it is the same answer the complete URL rule evaluation gives for the same value.", "quantifier": "every URL value and every rule in the fast path's domain", "why_tests_cant": "two implementations of one decision over unbounded strings", "anchors": ["src/justhtml/parser/engine.py:_sanitize_simple_url_fast", "src/justhtml/sanitizer/url/core.py"]}
{"id": "C22", "title": "A kept meta refresh only navigates to an approved URL", "statement": "If a meta refresh content value is kept, the URL a browser extracts from the output is the one approved by the URL rule.", "quantifier": "every content value and rule", "why_tests_cant": "the refresh grammar has optional separators and quotes", "anchors": ["src/justhtml/sanitizer/url/", "src/justhtml/sanitizer/dom.py"]}
{"id": "C23", "title": "Inline styles contain only allowed declarations", "statement": "A kept style attribute consists only of declarations whose property is allowed and whose value contains no escape and no resource-loading construct except approved url() functions.", "quantifier": "every style string and policy", "why_tests_cant": "CSS escapes and comments hide tokens in unbounded ways", "anchors": ["src/justhtml/sanitizer/css.py"]}
{"id": "C24", "title": "Only allowed elements survive sanitization", "statement": "After sanitizing any tree with any policy and any disallowed-tag handling, every element in the result, including inside template content, has a name in allowed_tags.", "quantifier": "every DOM tree and every policy", "why_tests_cant": "the walker mutates the tree while iterating; trees are unbounded", "anchors": ["src/justhtml/transforms/runtime.py:apply_to_children", "src/justhtml/transforms/compile.py:_compile_sanitize_transform"]}
{"id": "C25", "title": "Only allowed attributes survive sanitization", "statement": "After sanitizing, each attribute of each element is allowed for that element or globally by the policy (or is the forced link rel), and URL-valued attributes only survive with a value approved by their rule.", "quantifier": "every DOM tree and policy", "why_tests_cant": "unbounded trees and attribute lists", "anchors": ["src/justhtml/transforms/compile.py", "src/justhtml/transforms/runtime.py"]}
{"id": "C26", "title": "Comments and doctypes are removed when the policy says so", "statement": "With drop_comments no comment remains anywhere, with drop_doctype no doctype remains anywhere in the sanitized tree.", "quantifier": "every DOM tree and policy", "why_tests_cant": "unbounded trees; hoisting may re-insert nodes at already visited places", "anchors": ["src/justhtml/transforms/runtime.py", "src/justhtml/transforms/compile.py"]}
{"id": "C27", "title": "Foreign-namespace content never survives sanitization", "statement": "After sanitizing, no element in a non-HTML namespace remains.", "quantifier": "every DOM tree and policy", "why_tests_cant": "depends on which transforms hoisted nodes re-run, over unbounded nesting", "anchors": ["src/justhtml/transforms/runtime.py", "src/justhtml/transforms/compile.py", "docs/html-cleaning.md"]}
{"id": "C28", "title": "Content of dropped elements is gone", "statement": "Elements listed in drop_content_tags (and disallowed elements under drop handling) are removed with their entire subtree: no text below them appears in the result.", "quantifier": "every DOM tree and policy", "why_tests_cant": "unbounded trees", "anchors": ["src/justhtml/transforms/runtime.py", "src/justhtml/transforms/compile.py"]}
{"id": "C29", "title": "Unwrapping keeps text in order", "statement": "Under unwrap handling, the visible text of the sanitized tree is the original text in document order minus exactly the text below dropped elements.", "quantifier": "every DOM tree and policy", "why_tests_cant": "unbounded trees; hoisting order", "anchors": ["src/justhtml/transforms/runtime.py"]}
{"id": "C30", "title": "Sanitization is idempotent", "statement": "Sanitizing an already sanitized tree with the same policy changes nothing.", "quantifier": "every DOM tree and policy", "why_tests_cant": "fixpoint over unbounded trees", "anchors": ["src/justhtml/transforms/runtime.py", "src/justhtml/sanitizer/"]}
{"id": "C31", "title": "Forced link rel tokens are present", "statement": "After sanitizing with force_link_rel, every link element carries every required rel token, keeps its existing tokens, and has no duplicate tokens.", "quantifier": "every rel attribute value and token set", "why_tests_cant": "unbounded token lists", "anchors": ["src/justhtml/transforms/compile.py", "src/justhtml/transforms/runtime.py"]}
{"id": "C32", "title": "Raw text elements are inert after sanitization", "statement": "After sanitization with script or style allowed, such elements contain only text, and their combined text contains no end-tag sequence for the element.", "quantifier": "every DOM tree", "why_tests_cant": "end tags can be split over several text nodes", "anchors": ["src/justhtml/sanitizer/rawtext.py"]}
{"id": "C33", "title": "DOM operations keep a well-formed forest", "statement": "Starting from freshly created nodes, after any sequence of append_child, insert_before, replace_child, remove_child and fragment insertion, every child's parent pointer names the node that lists it exactly once, no node has two parents, and no node is its own ancestor.", "quantifier": "every finite history of DOM operations, including failing ones", "why_tests_cant": "histories are unbounded; cycles appear only after particular sequences", "anchors": ["src/justhtml/dom/__init__.py"]}
{"id": "C34", "title": "Failed DOM operations change nothing", "statement": "If a DOM mutation raises, the tree is exactly as before the call.", "quantifier": "every state and every failing operation", "why_tests_cant": "all states", "anchors": ["src/justhtml/dom/__init__.py"]}
{"id": "C35", "title": "Deep clones are equal and independent", "statement": "clone_node(deep=True) yields a tree with the same structure, names, attributes and text, made only of new nodes, and later changes to either tree do not affect the other.", "quantifier": "every tree", "why_tests_cant": "unbounded trees; iterative copying", "anchors": ["src/justhtml/dom/__init__.py:clone_node"]}
{"id": "C36", "title": "Unsafe-handling modes", "statement": "In strip mode nothing is raised or collected; in raise mode the first unsafe finding raises; in collect mode every finding is recorded exactly once in order, and resetting removes exactly the security findings.", "quantifier": "every history of findings and resets", "why_tests_cant": "histories", "anchors": ["src/justhtml/sanitizer/policy.py:UnsafeHandler"]}
{"id": "C37", "title": "Error lists are bounded, sorted and complete up to the bound", "statement": "doc.errors never exceeds max_errors, is sorted by position with ties in discovery order, keeps the first max_errors discovered, and strict mode raises exactly when there is an error.", "quantifier": "every sequence of reported errors and every bound", "why_tests_cant": "histories", "anchors": ["src/justhtml/parser/__init__.py"]}
{"id": "C38", "title": "Sanitization is on by default and cannot be skipped by listing transforms", "statement": "Unless sanitize=False is passed, the constructor runs at least one enabled sanitize step over the tree.", "quantifier": "every constructor call: transform list shape (nested stages, enabled flags), policy and sanitize argument", "why_tests_cant": "transform lists are arbitrarily nested", "anchors": ["src/justhtml/parser/__init__.py:_apply_constructor_transforms", "src/justhtml/transforms/compile.py:_transform_parse_requirements"]}
{"id": "C39", "title": "Input encoding is one of a fixed set and never UTF-7", "statement": "For any bytes and any transport label, the chosen encoding is one of the supported names, never UTF-7, and labels for UTF-7 select windows-1252.", "quantifier": "every byte string and every label", "why_tests_cant": "unbounded inputs", "anchors": ["src/justhtml/parser/encoding.py"]}
{"id": "C40", "title": "Encoding precedence", "statement": "A byte order mark wins over the transport label, which wins over a meta declaration, which wins over the default; a meta declaration of UTF-16 selects UTF-8; declarations inside comments or beyond the prescan window are ignored.", "quantifier": "every byte string and label", "why_tests_cant": "unbounded inputs", "anchors": ["src/justhtml/parser/encoding.py"]}
{"id": "C41", "title": "The open-element stack's indexed queries equal a plain scan", "statement": "After any history of pushes, inserts, replacements, pops and removals, every indexed query of the parser's stack of open elements returns what a scan of the stack would.", "quantifier": "every operation history", "why_tests_cant": "incrementally maintained indexes over unbounded histories", "anchors": ["src/justhtml/parser/engine.py:_CountingStack"]}
{"id": "C42", "title": "Selector combinators never over-match", "statement": "If matches(node, selector) is true for a complex selector then some assignment of the compound parts to ancestors and siblings satisfies every combinator (CSS semantics).", "quantifier": "every tree, node and complex selector", "why_tests_cant": "unbounded trees and selectors", "anchors": ["src/justhtml/selector/core.py:_matches_complex"]}
{"id": "C43", "title": "Selector combinators never under-match", "statement": "If the CSS semantics say a node matches a complex selector then matches() returns true.", "quantifier": "every tree, node and complex selector", "why_tests_cant": "greedy matching without backtracking is wrong only on particular trees", "anchors": ["src/justhtml/selector/core.py:_matches_complex"]}
{"id": "C44", "title": "nth expressions", "statement": "An element at 1-based position i matches An+B exactly when there is a non-negative integer n with i = A*n+B.", "quantifier": "all integers A, B and all positions", "why_tests_cant": "infinite domain, negative A, floor-modulo semantics", "anchors": ["src/justhtml/selector/core.py:_matches_nth"]}
{"id": "C45", "title": "Selector resource limits hold", "statement": "A selector accepted by the parser has at most max_list_items distinct list entries, each complex selector at most max_complex_selector_parts parts and each compound at most max_compound_simple_selectors distinct simple selectors; matching never consumes more steps than the budget.", "quantifier": "every token stream and every limits object", "why_tests_cant": "unbounded selectors", "anchors": ["src/justhtml/selector/core.py:SelectorParser,SelectorQueryContext"]}
{"id": "C46", "title": "Linkify matches are exact, ordered and disjoint", "statement": "find_links returns matches whose text is exactly the slice of the input they claim, in increasing order and without overlap.", "quantifier": "every text and every candidate source", "why_tests_cant": "unbounded text", "anchors": ["src/justhtml/transforms/linkify_core.py"]}
{"id": "C47", "title": "Linkify preserves text and only emits safe link schemes", "statement": "Replacing a text node by linkified nodes keeps the concatenated text identical, and each generated href starts with http://, https://, ftp://, mailto: or //.", "quantifier": "every text and match list", "why_tests_cant": "unbounded text", "anchors": ["src/justhtml/transforms/linkify_core.py", "src/justhtml/transforms/runtime.py"]}
{"id": "C48", "title": "Markdown text escaping neutralizes HTML and inline markup", "statement": "In the Markdown produced for a text run, no '<' appears, every '&' starts '&amp;' or '&lt;', every occurrence of a backtick, '*', '_', '[' or ']' is preceded by an odd-length run of backslashes, and unescaping returns the original text.", "quantifier": "every text", "why_tests_cant": "unbounded text", "anchors": ["src/justhtml/serializer/markdown.py:_markdown_escape_text"]}
{"id": "C49", "title": "Markdown code fences cannot be closed by their content", "statement": "The fence chosen for code is strictly longer than every run of backticks in the content, and a code span's content is single-line.", "quantifier": "every code string", "why_tests_cant": "unbounded runs", "anchors": ["src/justhtml/serializer/markdown.py:_markdown_backtick_fence,_markdown_code_span"]}
{"id": "C50", "title": "Markdown link destinations are contained", "statement": "A link destination written by to_markdown contains no whitespace and no '<' or '>' inside its wrapping brackets, and an unwrapped destination contains no parentheses.", "quantifier": "every href", "why_tests_cant": "unbounded strings", "anchors": ["src/justhtml/serializer/markdown.py:_markdown_link_destination"]}
{"id": "C51", "title": "Attribute glob patterns match by the usual rule", "statement": "A drop-attributes pattern matches a name exactly when '*' stands for any sequence and '?' for any single character.", "quantifier": "every pattern and name", "why_tests_cant": "backtracking matcher over unbounded strings", "anchors": ["src/justhtml/transforms/compile.py:_glob_match"]}
{"id": "C52", "title": "Whitespace collapsing is idempotent and only touches whitespace", "statement": "Collapsing whitespace leaves non-whitespace characters and their order unchanged, produces no two adjacent whitespace characters, and collapsing twice equals collapsing once.", "quantifier": "every text", "why_tests_cant": "unbounded text", "anchors": ["src/justhtml/transforms/runtime.py", "src/justhtml/transforms/spec.py:CollapseWhitespace"]}
{"id": "C53", "title": "Streaming parse of serialized output yields exactly the tree's events", "statement": "For DOM trees in the serializer's domain, stream(to_html(tree)) produces exactly the start, end, text and comment events of the tree in document order: no text or attribute can introduce additional markup.", "quantifier": "every such tree", "why_tests_cant": "end-to-end property over unbounded trees and strings", "anchors": ["src/justhtml/parser/stream.py", "src/justhtml/serializer/html.py"]}
{"id": "C54", "title": "Policy names are normalized and matched case-insensitively", "statement": "Policy element and attribute names are stored stripped and lower-cased, normalization is idempotent, and a policy that allows style without CSS properties is rejected.", "quantifier": "every name list", "why_tests_cant": "unbounded", "anchors": ["src/justhtml/sanitizer/policy.py"]}
{"id": "C55", "title": "Invisible characters are stripped completely and only those", "statement": "Stripping invisible Unicode removes exactly the listed code points, keeps all others in order and is idempotent.", "quantifier": "every text", "why_tests_cant": "whole Unicode range, unbounded text", "anchors": ["src/justhtml/sanitizer/", "src/justhtml/transforms/runtime.py"]}
{"id": "C56", "title": "ASCII case folding preserves offsets", "statement": "The folded copy used for marker searches has the same length as the original and a folded position is an ASCII letter only where the original was that letter in some case.", "quantifier": "every text", "why_tests_cant": "whole Unicode range", "anchors": ["src/justhtml/core/text.py:ascii_lower"]}
{"id": "C57", "title": "Text extraction follows document order", "statement": "to_text(strip=False, separator='') is the concatenation of all text data in document order, on every finite tree.", "quantifier": "every finite tree", "why_tests_cant": "unbounded trees", "anchors": ["src/justhtml/dom/__init__.py"]}
{"id": "C58", "title": "Sanitizing never invents elements", "statement": "Every element of a sanitized tree has the name and namespace of an element of the input, and each of its attributes is one that element carried (possibly with a rewritten value) or a forced rel.", "quantifier": "every tree, every policy in the modelled configuration", "why_tests_cant": "unbounded trees; the walker hoists, escapes and unwraps children in every combination", "anchors": ["src/justhtml/sanitizer/", "src/justhtml/transforms/runtime.py"]}
{"id": "C59", "title": "What the policy allows is kept", "statement": "An element whose name the policy allows and whose ancestors are all kept or unwrapped survives sanitization together with its allowed non-URL attributes.", "quantifier": "every tree, every policy in the modelled configuration", "why_tests_cant": "unbounded trees; a sanitizer that deletes everything would satisfy every safety test", "anchors": ["src/justhtml/sanitizer/", "src/justhtml/transforms/runtime.py"]}
{"id": "C60", "title": "DOM containment stays acyclic through template contents", "statement": "Following children and template_content, no node is ever inside itself, so every traversal of a tree built through the DOM API is finite.", "quantifier": "every finite history of DOM operations", "why_tests_cant": "cycles appear only after particular sequences of moves", "anchors": ["src/justhtml/dom/__init__.py:_adopt_child,_insert_fragment"]}
{"id": "C61", "title": "DOM mutations do exactly what they say", "statement": "append_child, insert_before, replace_child and remove_child put the node (or the children of a fragment) at exactly the documented place, remove it from its old place, change no other node, and raise exactly when the reference is not a child or the node is an ancestor of its new parent.", "quantifier": "every reachable state of the nodes, every operand, including moves within one parent", "why_tests_cant": "all states; index shifts when moving within one parent", "anchors": ["src/justhtml/dom/__init__.py:append_child,insert_before,replace_child,remove_child"]}
{"id": "C62", "title": "DOM calls always finish", "statement": "Every DOM mutation finishes on every reachable state, and so does a deep clone of anything that is a finite tree.", "quantifier": "every reachable state of the nodes and every operand", "why_tests_cant": "non-termination only shows in particular pointer graphs", "anchors": ["src/justhtml/dom/__init__.py"]}
{"id": "C63", "title": "Clones carry the requested attributes", "statement": "clone_node(override_attrs=d) returns a node with the attributes d, everything else being copied, and without the override with a copy of the original's attributes.", "quantifier": "every reachable state, every node, deep or shallow", "why_tests_cant": "all states and attribute dicts", "anchors": ["src/justhtml/dom/__init__.py:clone_node,_clone_subtree_iterative"]}
{"id": "C64", "title": "Query results come in document order, once each", "statement": "query(selector) on a node returns only nodes strictly below it (descendants through children and template contents), each at most once, and in document order (an element before everything inside it; the contents of a template before its ordinary children; earlier siblings' subtrees before later ones).", "quantifier": "every well-formed DOM, every root node, every selector the parser accepts, every limit setting", "why_tests_cant": "order and uniqueness must hold for trees of every shape; tests look at a handful of fixed documents", "anchors": ["src/justhtml/selector/core.py: query, _query_descendants, _query_descendants_tag"]}
{"id": "C65", "title": "The tag-name fast path agrees with the general selector path", "statement": "For a selector that is a single tag name, query (which uses a dedicated fast path) returns exactly what the general parse-and-match path would: the elements below the root with that name (ASCII case folded), in document order.", "quantifier": "every tag name accepted by the fast-path pattern, every DOM", "why_tests_cant": "two code paths must agree for all trees and names; a test fixes both", "anchors": ["src/justhtml/selector/core.py: query, _is_simple_tag_selector, _query_descendants_tag"]}
{"id": "C66", "title": "Selectors without combinators are exact", "statement": "For a selector list whose compounds use no combinators (tags, ids, classes, attribute operators, structural pseudo-classes, :not of such, selector lists), matches() answers true exactly when the element meets the CSS definition of the selector, and query() returns exactly those nodes below the root, unless a limit error is raised.", "quantifier": "every such selector, every DOM and element, every limit setting", "why_tests_cant": "the meaning of :nth-child, :not and attribute operators ranges over all trees, values and nesting depths", "anchors": ["src/justhtml/selector/core.py: matches, query, _matches_simple, _matches_pseudo"]}
{"id": "C67", "title": "Arguments of :nth-child and :contains are read as written", "statement": "Every CSS spelling of An+B (odd/even in any case, optional sign and coefficient, upper-case N, spaces around the sign, white space around the whole) selects with exactly that A and B; a quoted :contains argument stands for the unescaped text between the quotes and an unquoted one for itself without surrounding white space.", "quantifier": "every spelling with fewer than 4300 digits, every quoted text", "why_tests_cant": "infinitely many spellings; off-by-one and escaping errors show only on unusual ones", "anchors": ["src/justhtml/selector/core.py: _parse_nth_expression_uncached, _unquote_pseudo_arg"]}
{"id": "C68", "title": "Selector text is parsed as the selector it spells", "statement": "Every text that spells a selector according to the CSS grammar (names, ids, classes, attribute operators with quoted, escaped or bare values, pseudo-classes with arguments whose parentheses match, :not nesting, the four combinators and commas with any white space) and keeps within the limits is accepted, whatever white space surrounds it, and gives exactly that selector; so a text never has two readings, and query()/matches() on the text answer for the selector the text spells.", "quantifier": "every selector of every size and nesting depth and every spelling of it", "why_tests_cant": "a tokenizer/parser pair must invert an infinite grammar; tests sample a few spellings", "anchors": ["src/justhtml/selector/core.py: SelectorTokenizer, SelectorParser, parse_selector, query, matches"]}
{"id": "C69", "title": "Linkify ends and touches only text outside the skip tags", "statement": "Applying the Linkify transform to a document ends, raises only if the link finder raises on one of the visited texts, and otherwise changes only text nodes that are not inside a skip tag, replacing each by its pieces: the plain text between the links and one a element per link found, in order.", "quantifier": "every tree, every link-finder setting, every set of skip tags", "why_tests_cant": "termination and locality must hold for every tree and text; a loop shows only for particular settings", "anchors": ["src/justhtml/transforms/runtime.py", "src/justhtml/transforms/linkify_core.py: find_links"]}
{"id": "C70", "title": "What is linked is well-formed", "statement": "Every reported link without a scheme has a host ending in a known (or configured) top-level domain or, only with fuzzy_ip, is an IPv4 address; e-mail links have a domain ending in a known top-level domain; links with http, https or ftp have a non-empty host that does not begin or end with '-' or '.', has no '..' and no underscore, a port that is a number up to 65535, and an all-digit dotted host is a valid IPv4 address; a protocol-relative link has a dotted host or localhost; bare domains do not follow '/', ':' or '@'.", "quantifier": "every text, every setting", "why_tests_cant": "the set of texts is infinite and the finder is a pipeline of regular expressions, trimming and validations", "anchors": ["src/justhtml/transforms/linkify_core.py: find_links"]}
{"id": "C71", "title": "A plain URL between white space is always found", "statement": "Whatever text surrounds it, a URL scheme://host/path with an ordinary host, whose path does not end in punctuation or in an unbalanced quote or bracket, preceded and followed by white space or the end of the text, is reported with its exact offsets and itself as its address; punctuation between the URL and the white space is not part of the link.", "quantifier": "every surrounding text and every such URL", "why_tests_cant": "earlier candidates could swallow or hide it; depends on the whole surrounding text", "anchors": ["src/justhtml/transforms/linkify_core.py: find_links"]}
{"id": "C72", "title": "The link finder never raises", "statement": "find_links returns a list for every text.", "quantifier": "every text, every setting", "why_tests_cant": "an exception depends on rare characters in a rare position", "anchors": ["src/justhtml/transforms/linkify_core.py: find_links"]}
{"id": "C73", "title": "Pretty printing only reformats", "statement": "to_html() with its default pretty=True yields, for every indentation, the compact serialization of a document with the same elements, attributes, comments, doctypes and nesting, with preformatted elements (pre, code, textarea, script, style) untouched, in which each run of text has the same words; it raises exactly when the compact serialization does; and reading it back gives the events of that document.", "quantifier": "every tree whose raw text elements contain only text, every indent and indent_size", "why_tests_cant": "the layout has five different modes chosen from the whole list of children; a lost child or a broken tag shows only for particular combinations", "anchors": ["src/justhtml/serializer/html.py: to_html, _node_to_html"]}
{"id": "C74", "title": "Pretty printing keeps word boundaries", "statement": "White space that pretty printing adds or removes next to tags never joins two words or splits one word of the rendered text.", "quantifier": "every paragraph of text and inline elements", "why_tests_cant": "depends on the position of white space relative to tags in every combination of inline content", "anchors": ["src/justhtml/serializer/html.py: to_html, _node_to_html, _normalize_formatting_whitespace"]}
{"id": "C75", "title": "Default parsing yields only allowed elements", "statement": "After JustHTML(html) with the default policy, every element of the tree, at any depth, is an HTML element whose name is in the policy's allowed_tags; with fragment=True the same holds in every fragment context, whose own element is never left in the tree.", "quantifier": "every input string, fragment context and custom policy of the compiled kind", "why_tests_cant": "the one-pass engine sanitizes while it builds and repairs the tree; a bypass needs a long and strange nesting that no test contains", "anchors": ["src/justhtml/parser/engine.py: ParseEngine.parse, _insert_sanitized_element, _project_selectedcontent, _drop_recorded_nodes, _unwrap_recorded_nodes", "src/justhtml/parser/__init__.py: JustHTML.__init__"]}
{"id": "C76", "title": "Default parsing yields only allowed attributes", "statement": "After JustHTML(html) with the default policy, every attribute of every element of the tree is one that the policy allows for that element.", "quantifier": "every input string, document and fragment", "why_tests_cant": "attributes are copied by the adoption agency and by reconstruction from elements seen anywhere in the input", "anchors": ["src/justhtml/parser/engine.py: ParseEngine.parse, _parse_sanitized_attrs, _clone_formatting_entry, _reconstruct_active_formatting"]}
{"id": "C77", "title": "Default parsing yields no comments, and fragments no doctype", "statement": "After JustHTML(html) with the default policy the tree contains no comment and no processing instruction; after JustHTML(html, fragment=True) it contains no doctype either.", "quantifier": "every input string, every fragment context, scripting on or off", "why_tests_cant": "comments, bogus comments, processing instructions, CDATA sections and doctypes are recognised in a dozen places of the engine, with different rules by insertion mode", "anchors": ["src/justhtml/parser/engine.py: ParseEngine.parse, _parse_range, _append_comment, _parse_doctype"]}
{"id": "C78", "title": "The parser reads its whole input and stops", "statement": "Parsing any string ends: each round of the main loop reads at least one more character and never goes back, the loop ends exactly when the whole input has been read, and the scanners of attributes and of skipped subtrees end by themselves.", "quantifier": "every input string, policy, fragment context and parser state", "why_tests_cant": "an endless loop or a silently ignored rest of the input shows only for the one construct whose scanner does not advance", "anchors": ["src/justhtml/parser/engine.py: ParseEngine._parse_range, _skip_attrs, _parse_all_attrs, _parse_attrs_for_action, _skip_subtree"]}
{"id": "C79", "title": "Default parsing yields only harmless addresses", "statement": "After JustHTML(html) with the default policy, as a browser reads them every href of the tree is relative to the page or has the scheme http, https, mailto or tel, and every src stays on the page's own host.", "quantifier": "every input string, document and fragment", "why_tests_cant": "the addresses pass a fast check, a slow check, entity decoding and the tree builder's copying of attributes; browsers ignore white space and control characters that the checks must ignore too", "anchors": ["src/justhtml/parser/engine.py: ParseEngine.parse, _sanitize_simple_url_fast, _parse_attrs_for_action, _sanitize_parsed_attrs", "src/justhtml/sanitizer/policy_defaults.py: DEFAULT_POLICY"]}
{"id": "C80", "title": "The parser makes up no elements", "statement": "Every element of the tree that JustHTML(html) builds, with or without sanitizing, is html, head, body (documents), the context element (fragments), one of the elements HTML implies (p, br, tbody, tr, colgroup), or has a name for which the input holds a start tag: a '<' directly followed by that name, in any case, and then white space, '/', '>' or the end. (image gives img.) So an input that nowhere contains '<script' never gives a script element.", "quantifier": "every input string, every fragment context, scripting on or off, sanitized or raw", "why_tests_cant": "names travel through the tag scanner, case folding, SVG adjustment, formatting reconstruction, the adoption agency, foster parenting and select projection; a test sees one input", "anchors": ["src/justhtml/parser/engine.py: ParseEngine.parse, _parse_range, _parse_start_tag, _reconstruct_active_formatting, _adoption_agency"]}
{"id": "C81", "title": "Writing a tree and parsing it again gives the same tree", "statement": "A tree of ordinary content (elements other than parts of tables, forms, documents, raw text and foreign content, nested as HTML asks) is serialized without error, and JustHTML(html, fragment=True, sanitize=False) of the result is the same tree: names, attributes with their values and order, texts, comments and nesting. Different such trees have different markup. A tree that came from a parse is therefore not changed by writing and parsing it once more.", "quantifier": "every forest of ordinary content, of any depth and size, with any text and attribute values (no NUL, no carriage return)", "why_tests_cant": "serializer and parser are separate programs with separate tables; they must agree on escaping, quoting, void elements, implied end tags, active formatting and text merging for every nesting", "anchors": ["src/justhtml/serializer/html.py: to_html, serialize_start_tag", "src/justhtml/parser/engine.py: ParseEngine.parse, _parse_start_tag, _parse_end_tag, _append_text, _find_comment_end"]}
{"id": "C82", "title": "Sanitizing what is already clean changes nothing", "statement": "A tree of ordinary content that has only tags and attributes of the default policy, plain links of its schemes and no invisible characters is serialized without error, and JustHTML(html, fragment=True), which sanitizes while it parses, gives back exactly that tree. So what the default policy let through once, if its elements are nested as HTML asks, comes through unchanged when the output is parsed and sanitized again.", "quantifier": "every forest of ordinary content that the policy allows; every input whose sanitized tree is of that kind", "why_tests_cant": "sanitizing is spread over the tag scanner, three attribute scanners, the fast and the slow URL check and the tree builder; each must be the identity on every clean value", "anchors": ["src/justhtml/parser/engine.py: ParseEngine.parse, _parse_safe_start_tag, _parse_attrs_for_action, _sanitize_simple_url_fast", "src/justhtml/serializer/html.py: to_html", "src/justhtml/sanitizer/policy_defaults.py: DEFAULT_POLICY"]}
{"id": "C83", "title": "Default parsing leaves nothing invisible", "statement": "After JustHTML(html) with the default policy, no text and no attribute value of the tree contains a zero-width, bidirectional-control, variation-selector, byte-order-mark or private-use character, no matter whether it stood in the input, came from a character reference, or was put together from pieces.", "quantifier": "every input string, document and fragment, every context", "why_tests_cant": "text reaches the tree through a fast path, a slow path, raw text, text areas, titles and foster parenting, and is merged and copied afterwards; one forgotten path is enough", "anchors": ["src/justhtml/parser/engine.py: ParseEngine.parse, _append_text, _parse_rcdata_element, _append_raw_literal_text, _parse_attrs_for_action", "src/justhtml/sanitizer/policy_defaults.py: DEFAULT_POLICY"]}
{"id": "C84", "title": "Drop removes exactly what it matches", "statement": "JustHTML(html, transforms=[Drop(selector)]) gives the tree without the elements the selector matches and without what is inside them; every other node stays where it was, in its order, in templates too, and no matched element is left at any depth. The fast path for lists of tag names and the general path agree on this.", "quantifier": "every tree, every tag list, and every selector that looks at the element itself", "why_tests_cant": "the fast path rebuilds child lists in place while walking them, the general path goes through the walker with its restart marks; a test exercises one tree", "anchors": ["src/justhtml/transforms/runtime.py: apply_compiled_transforms", "src/justhtml/transforms/compile.py: _compile_drop_transform", "src/justhtml/transforms/spec.py: Drop"]}
{"id": "C85", "title": "Unwrap removes the element and keeps what it contains", "statement": "Unwrap(selector) replaces each element the selector matches by its children and template content, in place, and changes nothing else; all text stays, in order.", "quantifier": "every tree and every selector that looks at the element itself", "why_tests_cant": "children are moved up while the list is walked, with marks that say where the moved nodes continue", "anchors": ["src/justhtml/transforms/runtime.py: apply_compiled_transforms, _detach_children_for_hoist", "src/justhtml/transforms/spec.py: Unwrap"]}
{"id": "C86", "title": "SetAttrs sets the given attributes and nothing else", "statement": "After SetAttrs(selector, attributes=...), every matched element has exactly the given values for the given names, its other attributes are as before, and nothing else in the tree has changed.", "quantifier": "every tree, attribute dict and selector that looks at the element itself", "why_tests_cant": "the new value is written only if it differs from what is there, where a missing attribute and one without value look the same", "anchors": ["src/justhtml/transforms/runtime.py: apply_compiled_transforms", "src/justhtml/transforms/spec.py: SetAttrs"]}
{"id": "C87", "title": "Empty, Escape and Decide do to each element what was asked, and to nothing else", "statement": "Empty removes the children and template content of exactly the matched elements. Escape replaces exactly the matched elements by the text of their start tag, their contents and the text of their end tag. Decide asks the callback about each matched element (each node for '*') and keeps, drops, empties, unwraps or escapes it as told; contents that move up are decided on in turn.", "quantifier": "every tree, every callback that depends on the node, every selector that looks at the element itself", "why_tests_cant": "replacements are spliced into the list being walked and continue at a marked transform; an off-by-one in the marks skips or repeats nodes only for particular nestings", "anchors": ["src/justhtml/transforms/runtime.py: _escape_node, _empty_node, _apply_decide_action", "src/justhtml/transforms/spec.py: Empty, Escape, Decide"]}
{"id": "C88", "title": "Attribute transforms change exactly the attributes they name", "statement": "EditAttrs gives matched elements the attributes the callback returns and changes nothing else. DropAttrs removes exactly the attributes whose name a pattern matches, AllowlistAttrs keeps exactly those listed for the tag or for '*', both keeping the order. MergeAttrs leaves the attribute with the old and the new tokens, each once, and one spelling of its name; other attributes stay.", "quantifier": "every tree, every attribute dict, every pattern list, allowlist and token list", "why_tests_cant": "each has a fast path that returns early and a slow path that rebuilds the dict; default patterns are special-cased as string tests", "anchors": ["src/justhtml/transforms/compile.py: _compile_drop_attrs_transform, _compile_allowlist_attrs_transform", "src/justhtml/transforms/runtime.py: apply_compiled_transforms", "src/justhtml/transforms/spec.py: EditAttrs, DropAttrs, AllowlistAttrs, MergeAttrs"]}
{"id": "C89", "title": "DropComments, DropDoctype and DropForeignNamespaces remove one kind of node", "statement": "DropComments gives the tree without comments and processing instructions, DropDoctype without doctypes, DropForeignNamespaces without SVG, MathML and all other non-HTML elements and their contents; every other node stays.", "quantifier": "every tree", "why_tests_cant": "must hold at any depth, also inside templates, and for any sequence of neighbours while the list shrinks under the walk", "anchors": ["src/justhtml/transforms/runtime.py: apply_compiled_transforms", "src/justhtml/transforms/spec.py: DropComments, DropDoctype, DropForeignNamespaces"]}
{"id": "C90", "title": "PruneEmpty removes exactly the empty elements, from the inside out", "statement": "After PruneEmpty, the matched elements that contain no element and no text (blank text too, unless strip_whitespace=False) are gone, including those that became empty by the pruning itself; void elements stay, nothing else is removed, no non-blank text is lost, and a second run changes nothing.", "quantifier": "every tree, every run of neighbouring PruneEmpty transforms, every selector that looks at the element itself", "why_tests_cant": "whether an element is empty depends on what pruning did to everything inside it, at any depth", "anchors": ["src/justhtml/transforms/runtime.py: apply_compiled_transforms", "src/justhtml/transforms/spec.py: PruneEmpty"]}
{"id": "C91", "title": "CollapseWhitespace leaves single spaces between words and changes nothing else", "statement": "After CollapseWhitespace all white space left in texts outside the skipped elements is single spaces. A space at the start or the end of a text stays, except after a text that ends with white space and (with trim_blocks) at the edges of blocks. No other character of any text is lost or added, only texts change, and skipped elements (pre, textarea, code, script, style, title by default) stay exactly as they are, with everything in them.", "quantifier": "every tree whose element names can be written in markup, every list of skipped elements and of blocks, with and without trim_blocks", "why_tests_cant": "what happens to one text depends on its neighbours at any distance, on the edges of blocks around it and on all its ancestors", "anchors": ["src/justhtml/transforms/runtime.py: apply_compiled_transforms", "src/justhtml/transforms/__init__.py: _collapse_html_space_characters", "src/justhtml/transforms/spec.py: CollapseWhitespace"]}
{"id": "C92", "title": "Transforms in a pipeline work one after the other", "statement": "Running [T1, T2, ...] gives what running T1, then T2 on its result, and so on, gives, for transforms that change or remove one node at a time. Stages always run one after the other, each on the finished result of the one before. A disabled transform or stage has no effect, not even on how the others work together.", "quantifier": "every pipeline of transforms and nested stages, every tree", "why_tests_cant": "the implementation merges neighbouring transforms into one walk, compiles some of them together and runs others in bulk; a difference needs a particular combination of transforms and tree", "anchors": ["src/justhtml/transforms/compile.py: compile_transforms", "src/justhtml/transforms/runtime.py: apply_compiled_transforms", "src/justhtml/transforms/spec.py: Stage"]}
{"id": "C93", "title": "A pipeline that ends with Sanitize is safe whatever comes before it", "statement": "Whatever transforms and stages come before a final Sanitize(policy), with whatever selectors and callbacks, the result has only elements, attributes, URLs and styles the policy allows, and no comments or doctypes the policy drops.", "quantifier": "every pipeline, every callback, every policy, every tree", "why_tests_cant": "earlier transforms share the walk with the sanitizer, and nodes they insert or move could slip past it", "anchors": ["src/justhtml/transforms/compile.py: compile_transforms", "src/justhtml/transforms/runtime.py: apply_compiled_transforms", "src/justhtml/transforms/spec.py: Sanitize"]}
{"id": "C94", "title": "Every parse yields a finite tree whose pointers agree", "statement": "For every input, walking from the root by children and template_content reaches finitely many nodes, each in exactly one place: it is listed once, by one node, and its parent is that node; no node is below itself. So every walk over a parsed document ends and every recursion over it is well-founded.", "quantifier": "every text, as a document or as a fragment in any context element, with the default policy, with a policy that allows none of input, option and selectedcontent, or unsanitized", "why_tests_cant": "misnested formatting, foster parenting, templates, the copying of selected options, and the removal of recorded nodes at the end all relink nodes; a cycle or a node in two places needs one unlucky combination of them", "anchors": ["src/justhtml/parser/engine.py: _adoption_agency, _unwrap_recorded_nodes, _drop_recorded_nodes, _project_selectedcontent, _finish_fragment_context, _foster_parent_for", "src/justhtml/dom/__init__.py: Node, Template"]}
{"id": "C95", "title": "The shorthand of element() is read exactly as documented", "statement": "The first argument of element(...) is accepted if and only if it is an element name followed by attributes in brackets, each [name], [name=value], [name=\"value\"] or [name='value'] with distinct well-formed names, no bracket in an unquoted value and no backslash or closing quote in a quoted one. It then stands for exactly that name and those attributes with those values, and no text can be read in two ways. Everything else raises.", "quantifier": "every string", "why_tests_cant": "a small hand-written scanner: boundaries such as a value ending at the end of the text, brackets inside quotes, an empty value or a repeated name have to be right in every combination", "anchors": ["src/justhtml/dom/builder.py: _parse_element_name", "src/justhtml/serializer/html.py: _validate_serializable_tag_name, _validate_serializable_attr_name"]}
{"id": "C96", "title": "element() builds what it is given, or raises; what it builds can be written", "statement": "element(...) returns a node exactly if the namespace is html, svg or math(ml), the shorthand is well formed, all attribute names are well formed, none is given twice, and all children are nodes, strings, None, False or (nested) iterables of these. The node has the name, the attributes of the shorthand and then of the mapping, and the children in order with nested iterables laid out flat; for a template in html they are its content. Every tree made with element, text, comment and doctype serializes without error.", "quantifier": "every combination of arguments, children nested to any depth", "why_tests_cant": "nesting of children is unbounded, and whether serialization can raise depends on every node of the tree", "anchors": ["src/justhtml/dom/builder.py: element, text, comment, doctype, _flatten_children, _normalize_attrs, _normalize_namespace", "src/justhtml/serializer/html.py: _node_to_html_compact, serialize_start_tag"]}
{"id": "C97", "title": "A URL returned by clean_url_value opens only what the rule allows", "statement": "If clean_url_value returns a URL for a rule without proxying, a browser finds in it no scheme or an allowed one and, with a host allowlist, only allowed hosts (percent escapes in the host decoded); it is no //host reference and consists of ASCII letters, digits, /:@?&=#+-._~ and % only. Put into an attribute with escape_attr_value or into a script with clean_url_in_js_string, it is read back as the same URL. It means the same as the given text. The call raises only for a proxy rule without a proxy, or when decoding a character reference raises.", "quantifier": "every text, every rule without proxying (and every rule for the exceptions), every quote", "why_tests_cant": "the checks run on the text before it is percent-encoded, while the browser sees the text after encoding; attackers choose the text, so every combination of references, invisible characters, spaces, backslashes, credentials and ports matters", "anchors": ["src/justhtml/parser/__init__.py: clean_url_value, clean_url_in_js_string", "src/justhtml/sanitizer/url/runtime.py: _prepare_standalone_url_value_for_checking, _sanitize_url_value_with_rule", "src/justhtml/serializer/html.py: _escape_url_value, _escape_js_string"]}
{"id": "C98", "title": "to_html(context=...) and the combined escaping helpers are read back exactly", "statement": "For every node whose markup can be written: with context JS_STRING the result is the body of a string literal whose value is the markup and which cannot end the literal or the script; with HTML_ATTR_VALUE it is read by an HTML parser in a quoted attribute as the markup; with URL it is, read in a quoted attribute and percent-decoded, the stripped text of the node. A quote other than the two is refused where it matters. escape_html_text_in_js_string gives a literal whose value an HTML parser reads as the given text and no markup, escape_url_in_js_string one whose value percent-decodes to the given text.", "quantifier": "every tree, pretty or not, every quote, every text", "why_tests_cant": "two encodings are applied one after the other, so each character passes through both tables; a character treated in the wrong order breaks out of the context only in combination", "anchors": ["src/justhtml/serializer/html.py: HTMLContext, to_html", "src/justhtml/parser/__init__.py: escape_url_in_js_string, escape_html_text_in_js_string, escape_attr_value"]}
{"id": "C99", "title": "Nothing is removed silently, and there are no false alarms", "statement": "sanitize_dom with unsafe_handling='raise' raises the message of the first finding exactly if there is one, with 'collect' the policy holds exactly the findings of this call, in order. Every element the policy does not allow, every dropped comment and doctype, every text that loses invisible characters and every attribute that is gone is reported by name (unless it is inside something that is removed as a whole and reported). If nothing is reported, the result is the source tree: same nodes, names and texts, every attribute still there. Every finding names something that is in the source and that the policy objects to.", "quantifier": "every tree whose elements have proper names, every policy, every handler", "why_tests_cant": "a removal without a report, or a report without a removal, is one branch in one of eight transforms; it is seen only for a tree that reaches this branch with this policy", "anchors": ["src/justhtml/sanitizer/dom.py: sanitize_dom", "src/justhtml/sanitizer/policy.py: handle_unsafe, UnsafeHandler", "src/justhtml/transforms/compile.py: _sanitize_node_decision, _allowlist_attrs, _drop_url_attrs, _allow_style_attrs", "src/justhtml/transforms/runtime.py: apply_compiled_transforms", "src/justhtml/sanitizer/rawtext.py: _sanitize_rawtext_element_contents"]}
{"id": "C100", "title": "Collected errors stand at real places and count the tags right", "statement": "Every error of doc.errors stands at the line and column of a character of the input, and there is what the error says: a NUL, an end tag of the given name, the end of the input, or the place where a doctype is missing. There are at most max_errors, sorted by place; a larger limit only adds errors. Every NUL is reported. A missing doctype is reported exactly once, for documents that are not blank, and never for fragments. For markup made of text, comments, declarations and tags with closed quotes, the errors are exactly the end tags that close nothing, and one more if the input breaks off inside a tag or comment; an error about the end of the input is never reported otherwise. What to_html writes for a well nested tree is accepted by strict=True.", "quantifier": "every input, every limit, fragments and documents", "why_tests_cant": "the error scan keeps its own stack of open tags with an index of positions per name; a wrong truncation or an off-by-one in a position shows only for particular nestings and line breaks", "anchors": ["src/justhtml/parser/engine.py: _collect_basic_errors, _emit_error, _emit_null_errors, _line_col_at_pos, _is_self_closing_source_tag", "src/justhtml/parser/__init__.py: _sorted_errors, StrictModeError"]}
{"id": "C101", "title": "A policy object can be edited and used again; every call follows the policy as it stands", "statement": "A SanitizationPolicy keeps its compiled plan between calls. However often it is used and however its collections (allowed attributes, dropped tags, CSS properties, rel tokens, URL rules) are edited in between, each call returns what a newly constructed policy with the present field values returns. Without edits, each call returns what the first would have returned.", "quantifier": "every history of edits and calls on one policy object, every document", "why_tests_cant": "the plan is reused when a signature of the fields has not changed; a field missing from the signature, or compared too loosely, shows only in a history that uses the policy, edits exactly this field and uses it again", "anchors": ["src/justhtml/sanitizer/policy.py: SanitizationPolicy.compile, _sanitization_policy_signature, __post_init__", "src/justhtml/transforms/compile.py: _compile_sanitize_transform", "src/justhtml/transforms/spec.py: AllowlistAttrs, AllowStyleAttrs, MergeAttrs", "src/justhtml/sanitizer/dom.py: sanitize_dom"]}
{"id": "C102", "title": "Transforms that only remove keep a sanitized tree safe", "statement": "For every list of transforms [..., Sanitize(policy), post...] in which every transform after Sanitize is one of Drop, Unwrap, Escape, Empty, PruneEmpty, DropComments, DropDoctype, DropForeignNamespaces, CollapseWhitespace, HardenRawtext or Decide (in any order and any stages, with any selectors and decisions): the final tree has only allowed elements, allowed attributes and approved URLs, and no comments or doctypes the policy drops. Such transforms alone never make a node that is not text and never change an attribute.", "quantifier": "every tree, every policy, every list of transforms before and after, every Decide callback", "why_tests_cant": "fused walks, hoisting and escaping interleave the transforms; an element that is put back after its check, or a transform that runs before the sanitizer although it is listed after it, shows only for particular lists and trees", "anchors": ["src/justhtml/transforms/runtime.py: apply_compiled_transforms, _TransformRuntime", "src/justhtml/transforms/compile.py: compile_transforms, _append_compiled_transform", "src/justhtml/__main__.py: main (--cleanup)"]}
{"id": "C103", "title": "to_text(separator_blocks_only=True) separates blocks, never inline text", "statement": "The call ends on every tree. Its result is the lines of the tree joined by the separator, where a line ends at the beginning and the end of every block element and at br; texts on a line are joined by a space if stripped and by nothing otherwise. All non-empty texts are there, in document order and once; no line has text from inside and outside a block; inline elements never break a line. With an empty separator and strip=False the result is the text content.", "quantifier": "every tree, every separator, strip or not", "why_tests_cant": "the loop keeps two kinds of stack entries and merges line ends that meet; a break lost or doubled depends on how blocks, templates and empty texts happen to be nested", "anchors": ["src/justhtml/dom/__init__.py: _to_text_collect_block_chunks, _to_text_break, Node.to_text, _TEXT_BLOCK_ELEMENTS"]}
{"id": "C104", "title": "JustHTML(html, policy=P) keeps the promises of P on every input", "statement": "Every text (and None) gives a document or a fragment; a node as input does if it can be serialized. JustHTML(html, sanitize=False) is the parse tree as it is. JustHTML(html, policy=P) is sanitize_dom(JustHTML(html, sanitize=False), policy=P), and every node of the result is as P wants it: allowed elements with allowed attributes, addresses as their rules leave them, styles as the style sanitizer leaves them, comments and doctypes only if they are not dropped. The same holds with any list of transforms without Sanitize, and for the policy of a Sanitize listed first and followed by removing transforms, even with sanitize=False; Sanitize() without a policy takes the policy of the call.", "quantifier": "every input, every policy object other than the two shared defaults (every policy once transforms are given), every list of transforms with arbitrary callbacks, fragments in any context", "why_tests_cant": "which of three paths the constructor takes depends on the arguments, and whatever tree the parser makes of an input must be one the sanitizer handles; tests compare a few inputs under a few policies", "anchors": ["src/justhtml/parser/__init__.py: JustHTML.__init__, _apply_constructor_transforms", "src/justhtml/transforms/compile.py: _transform_parse_requirements, _normalize_transform_policies", "src/justhtml/sanitizer/policy.py: _default_policy_for_root_name"]}
{"id": "C105", "title": "The command line: exit codes, what is written, and safety of the output", "statement": "A run of justhtml ends with exit code 2 and a message iff --strict meets a parse error or the selector is refused, with 1 and nothing written iff a selector matches nothing, and otherwise writes the chosen nodes (the root, all matches, or with --first the first), each in the chosen format, in order, joined by a line break (an empty line for Markdown) and ended by one. Without --unsafe, every node that is written is as the default policy plus the tags of --allow-tags (separated by commas or spaces, in any case) wants it, with any selector and with --cleanup. --cleanup only removes nodes, and leaves no element with nothing but white space and comments in it, and no link without an address.", "quantifier": "every combination of options, every input text, every selector", "why_tests_cant": "the options interact: the policy is chosen in one place and the Sanitize of --cleanup in another; a run with the one combination that skips the policy would look right on harmless input", "anchors": ["src/justhtml/__main__.py: main, _get_parser"]}
{"id": "C106", "title": "Sanitized markup parsed again has no new elements (mutation XSS)", "statement": "If a tree has plain names (no '<', line feed or NUL in tag names, no '<' in attribute names), no comments, and none of the elements whose text is written verbatim (script, style, ...), then whatever its texts and attribute values are, to_html() parsed again without sanitizing, as a document or as a fragment in any context, has only elements with a name of the tree's elements or of elements that HTML implies (html, head, body, tbody, ...). So for a policy with such names, JustHTML(JustHTML(html, policy=P).to_html(), sanitize=False) has only elements that P allows or HTML implies, for every text; and the same for the default policy and texts without <svg, <math and <selectedcontent (for which C75 and C76 fail).", "quantifier": "all trees, texts, attribute values, policies, input texts, fragment contexts", "why_tests_cant": "a browser parses the output again, and markup hidden in text, attributes or names may come to life there; tests try known payloads, an attacker looks for the one that was not tried", "anchors": ["src/justhtml/serializer/html.py: to_html", "src/justhtml/parser/engine.py: parse", "src/justhtml/parser/__init__.py: JustHTML.__init__", "src/justhtml/sanitizer/core.py"]}
{"id": "C107", "title": "Sanitized markup parsed again has no new attributes and no new addresses (mutation XSS)", "statement": "If a tree has plain names (no '<', line feed or NUL in names of tags and attributes), no comments, none of the elements whose text is written verbatim (script, style, ...) and no svg or math, then to_html() parsed again without sanitizing, as a document, a fragment in the default context or in html, gives each element only attributes of an element of the tree with that name, each with the same name up to case and the same value (as a parser reads it: line ends become line feeds, U+FFFD stands for NUL; the value of a boolean attribute may be left out). So for a policy with such names JustHTML(JustHTML(html, policy=P).to_html(), sanitize=False) has only attributes that P allows for the element, for every text. With the default policy and inputs without svg, math and selectedcontent, every href and src found by parsing again is as harmless as C79 says.", "quantifier": "all trees, texts, attribute values, policies, input texts", "why_tests_cant": "a value that closes its quotes, or a name that is read in another place than where it was written, makes an event handler or a javascript: address out of harmless text; tests try known payloads", "anchors": ["src/justhtml/serializer/html.py: serialize_start_tag, _escape_attr_value, _choose_attr_quote", "src/justhtml/parser/engine.py: _parse_all_attrs, _parse_start_tag", "src/justhtml/parser/__init__.py: JustHTML.__init__"]}
{"id": "C108", "title": "Proxy handling sends exactly the URLs that would be kept, each as the one parameter of its name", "statement": "UrlPolicy(...) refuses a rule whose handling is proxy, its own or the default, if neither the rule nor the policy has a proxy. In a policy it accepts, such a rule keeps a URL iff it would keep it with handling allow and it does not start with something like '1x:' before any '/', '?', '#'; what it returns starts with the URL of the rule's proxy, or else the policy's, and a server that reads its query as a form finds exactly one parameter with the configured name, whose value is the kept URL.", "quantifier": "every policy, rule, proxy URL and parameter name that the constructors accept, every value and filter, every tolerant UTF-8 decoder of the server", "why_tests_cant": "a proxy URL that already has the parameter under another spelling (percent escapes, plus signs) makes the proxy read another value than the checked one; a policy without proxy silently drops every image; tests check single URLs", "anchors": ["src/justhtml/sanitizer/url/policy.py: UrlProxy.__post_init__, UrlPolicy.__post_init__", "src/justhtml/sanitizer/url/runtime.py: _validate_proxy_url, _proxy_url_value, _effective_proxy, _effective_url_handling, _sanitize_url_value_with_rule"]}
{"id": "C109", "title": "How many elements the policy removes does not change the tree: the batch is the same as one by one", "statement": "An element that the policy removes leaves its children in its place. From 32 such elements on the parser replaces them all in one batch. For every input without '<template', every policy and fragment context, the tree is the one that replacing them one by one gives, in whatever order, and each node's parent is the node it stands in; so no removed element, no child and no order of nodes depends on how many elements are removed, how they nest and which of them share a parent.", "quantifier": "all input texts without a template tag, policies, fragment contexts, documents and fragments, any number and nesting of removed elements, every order of removal", "why_tests_cant": "the batch only runs on inputs with at least 32 removed elements, far larger than test inputs, and its result depends on how removed elements nest and share parents", "anchors": ["src/justhtml/parser/engine.py: _unwrap_recorded_nodes, _expanded_children, _unwrap_node, _UNWRAP_BATCH_THRESHOLD, parse"]}
{"id": "C110", "title": "Text does not begin a Markdown block", "statement": "In to_markdown(), the text of a node or a paragraph stays the text of a paragraph: its line is never read by a CommonMark reader as a heading, a list item, a block quote, a rule, a code fence, an underline that makes the line above a heading, an HTML block, a link definition or indented code. Paragraphs stay as many, each on its own line with its own words.", "quantifier": "all texts without white space other than spaces and tabs that are not one of the few overlooked marker lines; all numbers of paragraphs, namespaces and attributes of them, both settings of html_passthrough", "why_tests_cant": "what begins a block depends on the whole first line of every possible text, and a test can only try the markers its author thought of", "anchors": ["src/justhtml/serializer/markdown.py: _markdown_escape_line_start, _markdown_thematic_or_setext_line, _markdown_escape_text, _MarkdownBuilder.text, _to_markdown_walk"]}
{"id": "C111", "title": "Markdown has the words of the text", "statement": "For a tree of text, paragraphs, headings, sections, rules, nested lists, line breaks, emphasis (em, i, strong, b) and links with plain addresses (nested, inside a line) and plain inline elements, to_markdown(), read the way CommonMark reads its escapes, has exactly the words of the text in document order, and the marks of the headings, rules, list items (numbered from 1), emphasis and links in their places, the last two next to the first and last word inside with the white space outside: none is lost, repeated, split, or run together with the next one, across nodes, elements and lines.", "quantifier": "all trees without the elements Markdown writes in a way of its own, all nesting and all placement of white space, both settings of html_passthrough", "why_tests_cant": "the spaces and line breaks that are written depend on what was written before, so the claim is about every sequence of nodes; tests hold a few", "anchors": ["src/justhtml/serializer/markdown.py: to_markdown, _to_markdown_walk, _MarkdownBuilder, _markdown_escape_text, _markdown_escape_line_start"]}
