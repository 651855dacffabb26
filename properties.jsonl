{"id": "C01", "title": "String/Parse round trip", "statement": "For every document built through the API that contains no reserved key \"___jnid_\" (and whose node ids, if any, are distinct), Parse(v.String()) succeeds, consumes the whole text, and returns v itself, except that a float whose text is an int64 literal comes back as that integer and that a 32-bit float comes back as the number its decimal text denotes. References and node ids come back as they were; a node id that is not positive is not written and comes back as none.", "quantifier": "all documents: any nesting depth, any width, any byte strings, any int64, any IEEE-754 double", "why_tests_cant": "tests sample a handful of documents; the claim quantifies over unboundedly nested documents and all byte strings", "anchors": ["jsonutils.go:Parse", "jsonutils.go:ParseStream", "write.go:buildString", "string.go:String"]}
{"id": "C02", "title": "Serialised text is a fixpoint", "statement": "Re-serialising a re-parsed document reproduces the same text: Parse(v.String()).String() == v.String(), for every document (32- and 64-bit floats, references and distinct node ids included) exactly if no float in it is negative zero (for -0.0 it is false: \"-0\" becomes \"0\").", "quantifier": "all documents without the reserved key, whose 32-bit floats hold float32 values", "why_tests_cant": "needs every nesting and every double; the -0 failure is a single point in 2^64", "anchors": ["jsonutils.go:Parse", "string.go:String", "write.go:buildString"]}
{"id": "C03", "title": "String output is valid RFC 8259", "statement": "v.String() is a JSON text by the RFC 8259 grammar for every document without pointers and without NaN/Inf floats.", "quantifier": "all documents", "why_tests_cant": "grammar membership of an unbounded family of outputs", "anchors": ["write.go:buildString", "jsonutils.go:quoteString", "jsonutils.go:escapeJsonChar"]}
{"id": "C04", "title": "Parse accepts every RFC 8259 text with the right meaning", "statement": "For every text derivable in the RFC 8259 grammar (with arbitrary whitespace placement, escapes and duplicate keys, no reserved key), Parse succeeds, never panics, and returns the value the grammar denotes: objects keep the last value per key, \\uXXXX outside the surrogate range decodes to UTF-8, integers in int64 range become ints.", "quantifier": "all RFC 8259 texts", "why_tests_cant": "the set of valid texts is infinite; whitespace/escape combinations are unbounded", "anchors": ["jsonutils.go:ParseStream", "jsonutils.go:parseDict", "jsonutils.go:parseArray", "jsonutils.go:parseQuoteString"]}
{"id": "C05", "title": "Parse terminates and reports an in-range offset", "statement": "On every byte string and every start offset ParseStream terminates; when it succeeds from an in-range offset the returned offset lies strictly after the start and not beyond the end of the input.", "quantifier": "all byte strings and offsets", "why_tests_cant": "termination and bounds over all inputs including malformed ones", "anchors": ["jsonutils.go:ParseStream", "jsonutils.go:parseDict", "jsonutils.go:parseArray"]}
{"id": "C06", "title": "When Parse panics", "statement": "Parse can panic (so it does not return a value or an error for every byte string). It panics exactly in three situations, reading the text from the left: a value is expected where ',' ':' ']' or '}' stands ({\"a\":}, [,], [1,,2]); a member \"___jnid_\" (bare or quoted, also written with escapes) has a value that is not an integer; a dictionary declares a node id (positive \"___jnid_\") that a dictionary before it declared. On every other text it returns. In particular a text without backslash, without the letters ___jnid_ and without an empty value position never panics.", "quantifier": "all byte strings", "why_tests_cant": "absence of panics over all malformed inputs; fuzzing only samples", "anchors": ["jsonutils.go:parseJSONValue", "jsonutils.go:parseDict", "parse_session.go:saveNode"]}
{"id": "C07", "title": "Parsed documents are well formed", "statement": "Every successfully parsed document has, at every depth, dictionaries with strictly increasing unique keys, integers within int64, and no node-id key left among the entries.", "quantifier": "all byte strings", "why_tests_cant": "must hold at every depth of every accepted text", "anchors": ["jsonutils.go:parseDict", "jsonutils.go:parseJSONValue"]}
{"id": "C08", "title": "Leading whitespace is insignificant", "statement": "Prefixing a text with any run of space, tab, CR, LF changes neither the value nor the error outcome of Parse and shifts the returned offset by the length of the run.", "quantifier": "all byte strings and all whitespace runs", "why_tests_cant": "unbounded runs and arbitrary (also malformed) texts", "anchors": ["jsonutils.go:skipEmpty", "jsonutils.go:ParseStream"]}
{"id": "C09", "title": "Serialisation is injective and canonical", "statement": "Two documents (references and distinct node ids allowed, no negative zero) have the same String() iff they are the same value up to the numbers their floats are written as; in particular dictionaries built by any insertion order with the same final content print identically, keys in byte order.", "quantifier": "all pairs of documents and all insertion histories", "why_tests_cant": "a statement over pairs and permutations", "anchors": ["write.go:buildString", "access.go:Set"]}
{"id": "C10", "title": "Quoted strings round trip and contain no raw control byte", "statement": "For every byte string s (valid UTF-8 or not), NewString(s).String() starts and ends with a quote, contains no byte below 0x20, no unescaped quote inside, and parses back to exactly s whatever bytes follow it.", "quantifier": "all byte strings and all continuations", "why_tests_cant": "2^(8n) strings", "anchors": ["jsonutils.go:quoteString", "jsonutils.go:escapeJsonChar", "jsonutils.go:parseQuoteString"]}
{"id": "C11", "title": "\\uXXXX escapes", "statement": "For every four hex digits (any case) in a string, the decoded bytes are the UTF-8 encoding of the code point when it is not a surrogate, and U+FFFD otherwise; hence surrogate pairs are NOT combined (finding).", "quantifier": "all 2^16 code units in any string context", "why_tests_cant": "exhaustive over code units and contexts", "anchors": ["jsonutils.go:hexstr2rune", "jsonutils.go:parseQuoteString"]}
{"id": "C12", "title": "PrettyString denotes the same document", "statement": "Parse(v.PrettyString()) returns the same document as Parse(v.String()) for every document whose dictionary keys contain no quote and no backslash. For other keys it is FALSE because PrettyString does not escape keys (witness). In documents with references the node ids are not written: the reader gets the document without ids, with references to nothing.", "quantifier": "all documents, all nesting levels", "why_tests_cant": "indentation depends on depth; the claim is for every depth", "anchors": ["jsonutils.go:prettyString"]}
{"id": "C13", "title": "Stream of documents", "statement": "ParseJsonStreams on the concatenation of any list of serialised arrays/dictionaries separated by arbitrary bytes other than [ and { returns exactly those documents in order; on every input it terminates and, unless a document makes Parse panic, returns the documents met by a left-to-right scan (after a failure the scan resumes right behind the bracket), failing only if no document at all was found.", "quantifier": "all document lists and all separators", "why_tests_cant": "unbounded lists and arbitrary noise", "anchors": ["jsonutils.go:ParseJsonStreams", "jsonutils.go:ParseStream"]}
{"id": "C14", "title": "A dictionary behaves as a map under every history", "statement": "After any sequence of Set/Remove operations, Get/Contains agree with an ordinary key-value map, SortedKeys is the strictly increasing list of the live keys, Length is their number, Remove reports exactly whether the key was present.", "quantifier": "all operation histories", "why_tests_cant": "histories are unbounded", "anchors": ["access.go:Set", "access.go:Remove", "access.go:Get", "access.go:Contains", "jsonutils.go:SortedKeys", "length.go:Length"]}
{"id": "C15", "title": "Path Add/Get laws", "statement": "If d.Add(o, path...) succeeds then d.Get(path...) returns o, every path not related by prefix keeps its old value, and missing or null intermediate levels become dictionaries; if Add fails (an intermediate value is not a dictionary) the dictionary is unchanged.", "quantifier": "all dictionaries, all paths, all values", "why_tests_cant": "unbounded path lengths; frame condition over all other paths", "anchors": ["access.go:Add", "access.go:_get"]}
{"id": "C16", "title": "RemoveIgnoreCase removes all and only matching keys", "statement": "RemoveIgnoreCase(k) terminates, removes every entry whose key equals k ignoring case and nothing else, keeps the order of the rest, and returns true iff something was removed.", "quantifier": "all dictionaries, keys and case-folding functions", "why_tests_cant": "any number of colliding spellings", "anchors": ["access.go:RemoveIgnoreCase", "access.go:remove"]}
{"id": "C17", "title": "Update and UpdateDefault are right/left biased merges", "statement": "After a.Update(b), Get(k) is b's value if b has k, else a's; after a.UpdateDefault(b), a's value wins. Both are idempotent, Update is associative, and a non-dictionary argument is a no-op.", "quantifier": "all dictionaries and keys", "why_tests_cant": "algebraic laws over all pairs/triples", "anchors": ["dict.go:Update", "dict.go:UpdateDefault"]}
{"id": "C18", "title": "Diff partitions", "statement": "Diff(a,b) splits: aNoB has exactly the keys only in a with a's values, bNoA symmetric, aAndB the common keys with equal values, aDiffB the common keys with unequal values paired as [a,b]; together they determine a and b up to Equals.", "quantifier": "all pairs of dictionaries", "why_tests_cant": "set-algebra over all pairs", "anchors": ["dict.go:Diff"]}
{"id": "C19", "title": "CopyIncludes / CopyExcludes are complementary", "statement": "For every key list, CopyIncludes keeps exactly the listed keys, CopyExcludes exactly the others, values unchanged, and merging the two gives back all entries.", "quantifier": "all dictionaries and key lists", "why_tests_cant": "all key lists including duplicates and absent keys", "anchors": ["clone.go:CopyIncludes", "clone.go:CopyExcludes", "clone.go:Copy"]}
{"id": "C20", "title": "Equals is structural equality", "statement": "On documents without pointers and NaN, Equals is reflexive, symmetric and transitive and coincides with recursive structural equality (floats by IEEE ==). With NaN or a pointer reflexivity is FALSE (witnesses).", "quantifier": "all documents, pairs and triples", "why_tests_cant": "equivalence laws over all triples", "anchors": ["equals.go:Equals", "jsonpointer.go:Equals"]}
{"id": "C21", "title": "Equals versus serialisation", "statement": "Documents without floats are Equals iff their String() texts are identical; with floats FALSE in both directions (-0.0 vs 0.0; 1.0 vs 1).", "quantifier": "all pairs of documents", "why_tests_cant": "pairs of unbounded documents", "anchors": ["equals.go:Equals", "string.go:String"]}
{"id": "C22", "title": "DeepCopy is equal and isolated", "statement": "DeepCopy of a pointer-free document returns an Equal document (same content but for node ids, which are dropped), allocated entirely afresh: no later history of mutating calls through the copy changes any document that existed before, and no later history of calls through older objects changes the copy. Findings: reference pointers are copied to nil (see C77 for what that does to the copy); the copy of JSONNull is a different pointer, so Add below a null member fails on the copy.", "quantifier": "all documents, all later mutation histories", "why_tests_cant": "aliasing over all histories", "anchors": ["clone.go:DeepCopy"]}
{"id": "C23", "title": "Array indexing", "statement": "GetAt(i) for i in [0,n) returns element i, for i in [-n,-1] element n+i, otherwise the out-of-range error; it never panics. Any key argument is an error.", "quantifier": "all arrays and all integers", "why_tests_cant": "all integers incl. extremes", "anchors": ["access.go:GetAt", "access.go:SetAt"]}
{"id": "C24", "title": "Integer text conversions", "statement": "NewInt(n).GetString() is the canonical decimal of n; NewString of it gives Int() == n; JSONString.Int succeeds exactly on [+-]?[0-9]+ texts whose value fits int64 and returns that value.", "quantifier": "all int64 and all byte strings", "why_tests_cant": "2^64 integers, all strings", "anchors": ["access.go:Int", "access.go:GetString", "string.go:String"]}
{"id": "C25", "title": "Boolean text conversion", "statement": "JSONString.Bool is true exactly on case variants of true/on/yes and on 1, false exactly on case variants of false/off/no and on 0, an error otherwise; the two classes are disjoint. Case variants are those of Unicode simple folding, so U+017F stands for s.", "quantifier": "all byte strings", "why_tests_cant": "all strings, including Unicode case variants", "anchors": ["access.go:Bool"]}
{"id": "C26", "title": "Typed accessors through a path", "statement": "For every dictionary and path, GetString/Int/Float/Bool/GetArray/GetMap/GetAt(path...) equals Get(path...) followed by the accessor without keys; a missing key, or a non-dictionary on the way, is an error of the documented kind and never a value. Finding: Int/Float/Bool never return (unbounded recursion) when the path leads to a dictionary, in particular with no keys.", "quantifier": "all dictionaries, paths", "why_tests_cant": "all paths", "anchors": ["access.go:GetString", "access.go:Int", "access.go:Bool", "access.go:GetArray", "access.go:GetMap"]}
{"id": "C27", "title": "URL query escaping round trips", "statement": "Query-escaping any byte string yields only [A-Za-z0-9-_.~+%] and unescaping returns the original.", "quantifier": "all byte strings", "why_tests_cant": "all strings", "anchors": ["querystring.go:simpleQueryString"]}
{"id": "C28", "title": "QueryString/ParseQueryString round trip", "statement": "For a dictionary d with non-empty top-level keys and no reference pointers, ParseQueryString(d.QueryString()) returns d with every scalar replaced by its text (d itself if all scalars are strings) exactly if: all keys are dot-free and canonical if they are numbers; there is no empty container below the top level; the elements of every array are in the order of the depth of their shallowest scalar; and in no dictionary below the top level do the scalars under the key \"0\" come first (a scalar that is less deep, or as deep under a negative number, comes before them). In particular it holds if there is no key \"0\" below the top level. A parsed query string, printed and parsed again, is the same exactly if its scalars are in that order (FALSE in general, witness); a parameter addressing the inside of a scalar is dropped without an error (witness); a member without any scalar is lost. Only dictionaries have a non-empty query string.", "quantifier": "all dictionaries with non-empty top-level keys, no reference pointers and array lengths that are Go ints", "why_tests_cant": "any width (numeric order of indices 0..n, not text order) and any depth", "anchors": ["querystring.go:ParseQueryString", "querystring.go:_queryString", "stringsegment.go:Less"]}
{"id": "C29", "title": "Query keys are processed in a total, numeric-aware order", "statement": "The key order used by ParseQueryString is a strict weak order: shorter paths first, numeric segments before text segments and ordered by value; keys with the same canonical text are the only ties.", "quantifier": "all segment lists", "why_tests_cant": "transitivity over all triples", "anchors": ["stringsegment.go:Less", "stringsegment.go:compare"]}
{"id": "C30", "title": "Segment conversion", "statement": "string2Segments/segments2string round trip exactly on keys whose numeric segments are canonical decimals; for others (\"01\", \"+1\") it is FALSE, and ParseQueryString then fails or drops the value (witness).", "quantifier": "all byte strings", "why_tests_cant": "all keys", "anchors": ["stringsegment.go:string2Segments", "stringsegment.go:segments2string", "querystring.go:parseQueryString"]}
{"id": "C31", "title": "NewJSONError is total", "statement": "NewJSONError never panics for any buffer and any position (also negative or past the end) and its excerpt is str[start:pos] ^ str[pos:end] with at most 10 bytes each side.", "quantifier": "all buffers and integer positions", "why_tests_cant": "index arithmetic over all positions", "anchors": ["errors.go:NewJSONError"]}
{"id": "C32", "title": "Interface() is faithful", "statement": "Interface() maps null to nil, scalars to their value, arrays elementwise in order, dictionaries keywise, at every depth; documents with the same Interface() and no node ids are Equals (floats compared by value).", "quantifier": "all documents", "why_tests_cant": "all depths", "anchors": ["interface.go:Interface"]}
{"id": "C33", "title": "IsZero and Length", "statement": "IsZero is true exactly for null, false, 0, 0.0/-0.0, empty string, array, dictionary; Length/Size equals the number of entries after any operation history.", "quantifier": "all documents", "why_tests_cant": "all values incl. negative zero", "anchors": ["iszero.go:IsZero", "length.go:Length", "size.go:Size"]}
{"id": "C34", "title": "Required-field check", "statement": "CheckRequiredFields(d, fs) returns nil iff every listed field is present and not null; otherwise the error names the first offending field and whether it is missing or null.", "quantifier": "all dictionaries and field lists", "why_tests_cant": "all lists", "anchors": ["utils.go:CheckRequiredFields"]}
{"id": "C35", "title": "Indexed-key collectors terminate and return the maximal run", "statement": "GetArrayOfPrefix(d,p) returns the values of p.0, p.1, ... up to the first missing or null index; GetQueryStringArray on a dictionary returns \"0\",\"1\",... up to the first missing; both terminate on every dictionary.", "quantifier": "all dictionaries and prefixes", "why_tests_cant": "unbounded loops over data", "anchors": ["utils.go:GetArrayOfPrefix", "utils.go:GetQueryStringArray"]}
{"id": "C36", "title": "First non-empty string among keys", "statement": "GetAnyString2 returns the string of the first listed key whose string is non-empty together with that key, and empty strings iff none is.", "quantifier": "all dictionaries and key lists", "why_tests_cant": "all lists", "anchors": ["utils.go:GetAnyString2", "utils.go:GetAnyString"]}
{"id": "C37", "title": "Currency normalisation", "statement": "A text with US (1,234.56) or EU (1.234,56) grouping normalises to sign, digits without grouping, and a decimal dot with the same fraction; normalisation leaves plain decimal texts and non-currency texts alone and is idempotent.", "quantifier": "all numbers of any magnitude", "why_tests_cant": "any number of groups", "anchors": ["currency.go:normalizeCurrencyString", "currency.go:normalizeUSCurrency", "currency.go:normalizeEUCurrency"]}
{"id": "C38", "title": "Marshal then Unmarshal restores typed data", "statement": "For values of types built from bool, sized ints, string, slices, arrays, string-keyed maps, pointers and structs (fields may carry the option string when they are booleans, texts, signed integers or unsigned integers below 64 bits, or be deprecated by other fields of the same type as long as such chains end), Unmarshal(Marshal(v)) into a fresh variable of the type restores v up to the documented omissions (empty/nil containers, nil pointers); a deprecated field comes back with the value of the field at the end of its chain.", "quantifier": "all types of the universe and all values", "why_tests_cant": "all types and values", "anchors": ["marshal.go:Marshal", "unmarshal.go:Unmarshal"]}
{"id": "C39", "title": "Slice elements keep their positions", "statement": "Marshal of a slice yields an array of the same length with element i marshalled at index i. FALSE of the code when elements are nil pointers/maps/slices: they are dropped (witness); true for MarshalAll. Marshal drops exactly the elements that are empty (nil, an undefined tristate, or a pointer or interface to one), in any memory.", "quantifier": "all slices", "why_tests_cant": "all lengths and nil positions", "anchors": ["marshal.go:marshalSlice"]}
{"id": "C40", "title": "MarshalAll keeps every field", "statement": "MarshalAll emits a key for every non-ignored, non-deprecated struct field whatever its value; Marshal emits a subset of those keys and omits a field exactly if it is empty in the documented sense, in any memory (cyclic pointers included; likewise the entries of a map); what Marshal writes is what MarshalAll writes with members and elements left out, at any depth, in any memory (shared and cyclic pointers included), in the same order and otherwise unchanged, node ids and references too; one call returns exactly if the other does (FALSE, with a witness, for containers with the string option: their texts differ); every emitted field holds what its value marshals to by itself (with the string option: that as a text, floats with six decimals; texts, times and documents are not changed), and a deprecated field is written like the field at the end of its chain.", "quantifier": "all structs", "why_tests_cant": "all field combinations", "anchors": ["marshal.go:MarshalAll", "marshal.go:struct2JSONPairs"]}
{"id": "C41", "title": "Deprecated-field aliasing terminates and is order independent", "statement": "Resolution of deprecated-by tags in Marshal yields for each deprecated key the value at the end of its chain, independent of map iteration order, and terminates exactly if no chain runs into a cycle that avoids its start. Finding: termination FAILS for such 'rho' tag graphs (Marshal loops forever).", "quantifier": "all tag graphs and iteration orders", "why_tests_cant": "all graphs and schedules of map iteration", "anchors": ["marshal.go:struct2JSONPairs", "marshal.go:findValueByKey"]}
{"id": "C42", "title": "Deprecated-field assignment terminates on unmarshal", "statement": "Unmarshalling a key assigns the value to the matching field and to every field reachable along deprecated-by tags, each at most once, and terminates for every (also cyclic) tag graph.", "quantifier": "all tag graphs", "why_tests_cant": "cyclic graphs of any shape", "anchors": ["unmarshal.go:setStructFieldAt"]}
{"id": "C43", "title": "Marshal of cyclic object graphs", "statement": "Marshal terminates on every finite pointer graph (slices and maps not containing themselves, deprecated-by chains that end). When pointers point to structs, maps or scalars, every emitted reference <n> points to an object in the result carrying node id n, node ids are unique, every node id is caused by a reference to it or to a pointer met earlier (so a document without references has no ids), and the text parses back to the same document. FALSE beyond that (witnesses): self-containing slices diverge, pointers to slices give dangling references, pointers to pointers give an id chosen by Go's map order, deprecated aliases duplicate ids so that Parse panics; objects may carry an id nobody refers to.", "quantifier": "all finite pointer graphs", "why_tests_cant": "all graph shapes, cycles, sharing", "anchors": ["marshal.go:marshalValueWithObjectMap", "json_pointer_trace.go:find", "json_pointer_trace.go:pop", "jsonpointer.go:setAllNodeId"]}
{"id": "C44", "title": "Unmarshal resolves references in any order", "statement": "For every sequence of node definitions and references met while unmarshalling, each reference variable ends up holding the address of the node with its id (the latest definition before it, or else the first one after it), in whatever order they come; the exact condition under which the session panics is characterised. Finding: a definition held by a pointer variable that is met after a pending reference panics, although the same definition met first is fine.", "quantifier": "all event sequences", "why_tests_cant": "all orders of definitions/references", "anchors": ["unmarshal_session.go:saveNodeValue", "unmarshal_session.go:setPointerValue"]}
{"id": "C45", "title": "Concurrent String() on floats", "statement": "Any number of goroutines calling String() on the same float, interleaved in any way at the level of its reads and writes of the width field, all obtain the same text as a sequential call. (Assumes reads and writes of the machine word are atomic; the Go memory model itself calls this a data race.)", "quantifier": "all schedules, any number of readers", "why_tests_cant": "all interleavings", "anchors": ["string.go:String"]}
{"id": "C46", "title": "Scalar Unmarshal at the root", "statement": "v.Unmarshal(&x) stores v into x for every scalar v. FALSE for ints, floats and bools: the promoted method stores the zero value (witness); true for strings, arrays and dictionaries, and for scalars reached through a key path.", "quantifier": "all scalars and target kinds", "why_tests_cant": "all values", "anchors": ["unmarshal.go:Unmarshal", "unmarshal.go:jsonUnmarshal"]}
{"id": "C47", "title": "Message catalogue is complete and in bounds", "statement": "Every error constant of the package has an entry in the English message catalogue whose text is the message, and every catalogue lookup of any key is in bounds; the Chinese catalogue lacks exactly one of the messages (finding).", "quantifier": "all keys of the table (finite)", "why_tests_cant": "a whole-table statement, cheap to prove and easily broken by regeneration", "anchors": ["locales/locales.go:Lookup", "errors.go"]}
{"id": "C48", "title": "ParseQueryString does not depend on parameter order", "statement": "Reordering the parameters of a query string with distinct non-empty keys does not change the result of ParseQueryString, errors included.", "quantifier": "all parameter lists and permutations", "why_tests_cant": "all permutations of lists of any length, and all iteration orders of Go's url.Values map", "anchors": ["querystring.go:ParseQueryString", "stringsegment.go:Less"]}
{"id": "C49", "title": "QueryBoolean defaults exactly when the key is absent", "statement": "QueryBoolean(query,key,def) returns def iff query is nil, not a dictionary or has no such key; otherwise the truth value of the entry's text, whatever def is.", "quantifier": "all documents, keys, defaults", "why_tests_cant": "all documents", "anchors": ["utils.go:QueryBoolean"]}
{"id": "C50", "title": "Accessors by kind of document", "statement": "On a document that is not a dictionary, no accessor given a non-empty path returns a value; without a path each accessor returns a value exactly on its kinds: Int on ints and decimal strings, Float on floats, ints and numeric strings, Bool on bools and boolean words, GetArray on arrays and (as a singleton) on scalars, GetMap never, GetString always.", "quantifier": "all documents of every kind, all paths", "why_tests_cant": "all values of all kinds", "anchors": ["access.go:GetString", "access.go:Int", "access.go:Float", "access.go:Bool", "access.go:GetArray", "access.go:GetMap", "access.go:GetAt"]}
{"id": "C51", "title": "Mutation in memory does what it does on documents", "statement": "Set, Remove, SetAt, array Add and dictionary Add along a path, executed on objects in memory with arbitrary sharing, change the document seen at the receiver exactly as the operation on values says, and leave every document that does not contain a changed object as it was, provided the stored value does not contain the receiver (and, for Add along a path, the path is not aliased). Findings: storing a value containing the receiver leaves an object that spells no document; with an aliased path Add changes the siblings too.", "quantifier": "all heaps, documents, sharing patterns, keys, paths, indices", "why_tests_cant": "all aliasing patterns", "anchors": ["access.go:Set", "access.go:Remove", "access.go:SetAt", "access.go:Add", "clone.go:Copy"]}
{"id": "C52", "title": "The accepted language and its meaning", "statement": "Parse returns document v exactly on the texts that, behind blanks, start with a text of v in the following grammar, in which no node id is declared twice: JSON extended by bare words as keys and values (keywords null/none/true/yes/false/no in any case, else integer, else float, else the text itself), single-quoted strings, \\xHH and any other escaped byte standing for itself, a missing closing quote or bracket at the very end of the text (only directly behind the opening bracket or a comma), a comma before a closing bracket, an empty bare key, references <n> and reserved members declaring a node id. Of several members with one key the last counts. Whatever follows the text is ignored; ParseStream returns its position. The grammar is unambiguous.", "quantifier": "all byte strings, all documents", "why_tests_cant": "the language is infinite; tests sample accepted and rejected texts", "anchors": ["jsonutils.go:Parse", "jsonutils.go:ParseStream", "jsonutils.go:parseDict", "jsonutils.go:parseArray", "jsonutils.go:parseString", "jsonutils.go:parseQuoteString", "jsonutils.go:parseJSONValue"]}
{"id": "C53", "title": "Unmarshal into a struct writes only the fields the document names, and all of them", "statement": "When a dictionary is unmarshalled into an existing struct, a field that no key of the dictionary leads to (directly or through deprecated-by options) keeps its value, whatever errors occur. If no key is deprecated and no two keys match one field, every key's field receives that key's document even if other keys fail, and all errors are reported together in key order.", "quantifier": "every dictionary, every struct type, every previous value of the struct", "why_tests_cant": "A test fixes one type, one old value and one document; the claim ranges over all of them.", "anchors": ["unmarshal.go:JSONDict.unmarshalStruct", "unmarshal.go:setStructFieldAt"]}
{"id": "C54", "title": "Unmarshal into slices and arrays", "statement": "After an array document a slice has exactly as many elements as the document; the elements are merged into the old backing array when it is long enough (old data shows through), otherwise into zero values, in order until the first error, later elements being left alone. A Go array of another length is left unchanged with an error.", "quantifier": "every array document, element type and previous slice, with any spare capacity", "why_tests_cant": "A test fixes one type, one old value and one document; the claim ranges over all of them.", "anchors": ["unmarshal.go:JSONArray._unmarshalValue"]}
{"id": "C55", "title": "Marshal's result is a well-formed document", "statement": "Whatever Marshal or MarshalAll returns is a well-formed document: keys sorted and unique at every depth, integers in range. For acyclic values, however much is shared, it contains no reference and no node id, does not depend on Go's map iteration order, and its text parses back.", "quantifier": "all Go values of the modelled universe, all memories", "why_tests_cant": "all values, sharing patterns and map orders", "anchors": ["marshal.go:Marshal", "marshal.go:struct2JSONPairs", "json_pointer_trace.go"]}
{"id": "C56", "title": "Unmarshal into maps merges", "statement": "A dictionary unmarshalled into a map keeps the map's other entries and replaces those with the same key by freshly unmarshalled values; on an error, exactly the entries with smaller keys than the failing one have been stored. Maps with other keys than strings are refused.", "quantifier": "every dictionary, element type and previous map", "why_tests_cant": "A test fixes one type, one old value and one document; the claim ranges over all of them.", "anchors": ["unmarshal.go:JSONDict.unmarshalMap"]}
{"id": "C57", "title": "Unmarshal keeps types and panics only on unsigned integers", "statement": "Whatever the document and path of keys, after Unmarshal the variable holds a value of its type; and Unmarshal returns (no panic) provided that the variable contains no unsigned integers or the document no booleans and floats. (A boolean or float in the place of an unsigned integer panics.)", "quantifier": "every document, path of keys, type and previous value", "why_tests_cant": "Panics need the one combination of document kind and variable kind nobody tested.", "anchors": ["unmarshal.go", "std_json.go:indirectStdUnmarshaler"]}
{"id": "C58", "title": "Conversions of scalars by Unmarshal", "statement": "null resets any variable to its zero value, an undefined reference leaves it alone; an integer stored in an integer variable is the number of that type congruent to it modulo 2^bits; numbers stored in boolean variables are true unless zero; booleans stored in number variables are 1 and 0 (and panic in unsigned ones); integers and booleans stored in text variables look as in the document, floats have six digits behind the point; interface variables hold the Go value, JSONObject variables the document; the empty text leaves numbers alone and other texts that are no numbers are errors; a text stored in a *JSONBool is true exactly for the words true, yes, on and 1 (whatever the case of letters); an integer stored as text reads back as itself; nil pointers are allocated even if the document does not fit.", "quantifier": "every scalar document, type and previous value", "why_tests_cant": "A test fixes one type, one old value and one document; the claim ranges over all of them.", "anchors": ["unmarshal.go:JSONInt._unmarshalValue", "unmarshal.go:JSONString._unmarshalValue", "unmarshal.go:JSONValue.unmarshalValue"]}
{"id": "C59", "title": "Update copies exactly the non-empty fields", "statement": "Update(&dst, src) for structs of one type leaves every field of dst whose value in src is ignored or empty (per its tag options), and lets the others receive what Marshal makes of them; if all fields are booleans, numbers and texts, it never fails and copies exactly the non-empty fields. A deprecated field of dst is never set from the same field of src: it keeps its value if the field at the end of its chain is empty in src, and otherwise receives what Marshal makes of that one.", "quantifier": "every struct type, source value and destination value", "why_tests_cant": "A test fixes one type, one old value and one document; the claim ranges over all of them.", "anchors": ["update.go:Update", "marshal.go:struct2JSONPairs", "unmarshal.go:JSONDict.unmarshalStruct"]}
{"id": "C60", "title": "Unmarshal is idempotent", "statement": "If Unmarshal succeeds, running it a second time on the result changes nothing, for variables without JSON objects by value and documents whose keys match no field twice. (A JSONArray by value grows with every call.)", "quantifier": "every document, type and previous value", "why_tests_cant": "A test fixes one type, one old value and one document; the claim ranges over all of them.", "anchors": ["unmarshal.go"]}
{"id": "C61", "title": "Unmarshal resolves references, or panics on forward ones", "statement": "A document whose dictionaries carry distinct node ids and that fits the type of the variable, unmarshalled into a zero variable: if no reference comes before the dictionary it refers to, Unmarshal succeeds, changes nothing in memory but the variable and new objects, and every reference becomes a pointer to the very object into which its dictionary was read (cycles included); references to ids the document does not define are nil. If a reference does come before its dictionary, Unmarshal panics, and that is the only way it fails. A reference in an interface{} variable that comes after its dictionary is a pointer to the object; finding: one that comes before it becomes, without panic, a pointer to the pointer variable (**T). Marshal's own output can be of that kind (struct fields not declared in the order of their keys).", "quantifier": "every struct type table, variable type, memory, and document that fits", "why_tests_cant": "Graphs of unbounded size and shape; a test fixes one.", "anchors": ["unmarshal.go:JSONDict.unmarshalValue", "unmarshal_session.go:saveNodeValue", "unmarshal_session.go:setPointerValue", "jsonpointer.go:JSONPointer.unmarshalValue"]}
{"id": "C62", "title": "Pointer graphs survive Marshal and Unmarshal", "statement": "For every finite graph of typed variables (structs, slices, arrays, string-keyed maps, scalars and pointers to structs, maps and scalars), cyclic or not, with no value a round trip is known to lose, Marshal/MarshalAll of a pointer to a struct or map (or of a struct, map, slice or array by value) returns a document whose Unmarshal into a zero variable of the same type makes that variable indistinguishable from the original by reading fields, elements and entries and following pointers to any depth, changes nothing else in memory, and returns no error; the only exception is that Unmarshal panics exactly if the document has a reference before the dictionary it refers to, which never happens if all struct types declare their fields in key order. The same holds through the document's text. (Sharing that is not part of a cycle is not preserved: the shared variable is duplicated.)", "quantifier": "all finite typed memories and root values in them, all struct type tables, all map iteration orders, Marshal and MarshalAll, all target memories and locations", "why_tests_cant": "the claim is about all heap graphs, including cyclic ones, and equality of possibly infinite unfoldings (a bisimulation); tests only try a few shapes", "anchors": ["marshal.go:marshalValueWithObjectMap", "jsonpointer.go:setAllNodeId", "json_pointer_trace.go:find,pop", "marshal_session.go", "unmarshal.go", "unmarshal_session.go"]}
{"id": "C63", "title": "Unmarshal into existing pointers, slices and maps is what it is on values", "statement": "Into a variable that already holds pointers, slices (with spare capacity) and maps, none of them shared with another part of it, Unmarshal of a document in which no reference refers to a dictionary of the document behaves in memory exactly as the value semantics of Unmarshal says: same panics, same error, same resulting value; existing pointees, backing arrays with enough capacity and maps are updated in place; nothing is written outside the objects the value consisted of, and the new value is made of those and of new objects, still with nothing shared.", "quantifier": "all documents, key paths, types, memories, locations and unshared values of the type, all struct type tables", "why_tests_cant": "the claim is about all shapes of aliasing-free memories and the frame of every write; tests look at the target variable only and at a few shapes", "anchors": ["unmarshal.go:JSONArray._unmarshalValue", "unmarshal.go:JSONDict._unmarshalValue", "unmarshal.go:unmarshalMap", "unmarshal.go:unmarshalStruct", "unmarshal.go:Unmarshal"]}
{"id": "C64", "title": "Unmarshal touches only what the target reaches", "statement": "Whatever is shared or cyclic in the target and whatever references the document has, Unmarshal(&x) changes no object in memory that cannot be reached from x by following pointers, slices and maps, and afterwards x reaches no pre-existing object that it did not reach before.", "quantifier": "all documents (with or without references), key paths, types, memories (shared, cyclic, ill-typed) and locations", "why_tests_cant": "a frame property over all memories; a test cannot inspect every object that is not the target", "anchors": ["unmarshal.go", "unmarshal_session.go", "jsonpointer.go"]}
{"id": "C65", "title": "Marshal's result is the graph, also through references", "statement": "The references in what Marshal returns hold the dictionaries they refer to: following the document with the accessors, one call for each step, one sees exactly what one sees following the Go value with selectors, indices and dereferences, round cycles as often as one likes. One call Get(k1,\u2026,kn) does not follow references (ErrInvalidJsonDict) but agrees otherwise. Interface() of such a document does not return if and only if it contains a reference, and a document with a reference does not Equal itself.", "quantifier": "all finite pointer graphs (pointers to structs, maps or scalars; no ,string or deprecated-by), all paths of any length", "why_tests_cant": "paths are unbounded because of cycles; the claim is a bisimulation between memory and document", "anchors": ["jsonpointer.go", "marshal.go", "access.go", "interface.go", "equals.go"]}
{"id": "C66", "title": "UnmarshalJSON methods get the document's text", "statement": "A document other than null or a reference that goes into a variable of type *...*T, where T has an UnmarshalJSON method, allocates missing pointers and calls the method on the variable behind them with the text of the document (an RFC 8259 text that Parse reads back); the method's result and error are the result. Types without methods in them behave as if no type had any. Null zeroes the variable without calling anything. A text into time.Time never fails and the empty text is the zero time, whereas into *time.Time it goes through UnmarshalJSON with its errors.", "quantifier": "all documents, target types, methods (arbitrary functions) and previous contents", "why_tests_cant": "arbitrary user methods, all documents and all pointer depths", "anchors": ["std_json.go:indirectStdUnmarshaler", "std_json.go:tryStdUnmarshal", "std_json.go", "unmarshal.go:JSONString.unmarshalValue"]}
{"id": "C67", "title": "AfterUnmarshal establishes invariants", "statement": "An invariant of structs that zero values satisfy, AfterUnmarshal establishes and UnmarshalJSON respects holds of every struct in a variable after every Unmarshal into it, also if Unmarshal returns an error. The methods are called from the innermost embedded structs to the outermost, for each struct that is there the method Go finds for it (the declaration at the least depth of embedding, if there is only one at that depth); so each once if every struct declares its own. A promoted method is called twice, or on a nil pointer (witnesses).", "quantifier": "all invariants, methods, documents, types and previous contents; all trees of embedded structs", "why_tests_cant": "arbitrary user methods and invariants, all documents", "anchors": ["unmarshal.go:callStructAfterUnmarshal", "unmarshal.go:JSONDict.unmarshalStruct"]}
{"id": "C68", "title": "ParseQueryString on arbitrary query strings", "statement": "A query string is rejected as malformed iff some &-separated piece contains a semicolon or an invalid percent escape; otherwise the result depends only on the sequence of values of every key (not on the order of the keys or the way they are escaped). For dot-free keys it is the dictionary holding for each key its text, or the array of its texts in order if repeated. Every result is a well-formed dictionary whose scalars are all texts, each the value of some parameter; all its keys are dot-free, number keys are canonical, and below the top level no container is empty.", "quantifier": "all byte strings", "why_tests_cant": "all strings, all encodings of the same parameters, all multiplicities", "anchors": ["querystring.go:ParseQueryString", "querystring.go:addQueryStringSeg"]}
{"id": "C69", "title": "Floats are read as the nearest double and written with the fewest digits", "statement": "Parse turns a JSON number that is no 64-bit integer into the double nearest to it (of two equally near ones the even one); from half a step beyond the largest double on, the number is kept as text. Float() does the same for texts, with an error for numbers that are too big, and returns the nearest double for integers. String() of a finite non-zero double (or float32) is a JSON number without exponent: of all decimal numbers that are read as that double (float32) one with the fewest digits, and the nearest to it of those. A float field with the string option is written as the nearest multiple of 10^-6.", "quantifier": "all JSON numbers (exponents below 100000), all doubles and float32s, all 64-bit integers", "why_tests_cant": "Rounding has 2^64 cases per format and unboundedly many decimal inputs; ties and subnormals are rare inputs no test samples.", "anchors": ["jsonutils.go:parseJSONValue", "access.go:JSONString.Float", "access.go:JSONInt.Float", "string.go:JSONFloat.String", "marshal.go:marshalFloat64"]}
{"id": "C70", "title": "Round trips through the methods of the user's types", "statement": "A value whose types may have MarshalJSON and UnmarshalJSON methods (also behind pointers to pointers), AfterUnmarshal methods, and time.Time fields: Unmarshal of what Marshal or MarshalAll wrote, directly or printed and parsed, restores it into a fresh variable, if for each value with methods in it the document that MarshalJSON returns is one from which UnmarshalJSON makes the value again. Times come back as ParseTimeStr reads their text, structs as AfterUnmarshal leaves them; if these change nothing, and nothing is dropped as nil, empty or ignored, the value comes back unchanged. The document written for a value with a MarshalJSON method is the one its text denotes by RFC 8259; Marshal panics if the method returns an error or a text that Parse rejects. A MarshalJSON method with a pointer receiver is not used for values that are not behind a pointer, although UnmarshalJSON is.", "quantifier": "all methods (arbitrary functions), all struct types, values and memories, Marshal and MarshalAll, any field tags allowed by the hypotheses", "why_tests_cant": "arbitrary user methods and types of unbounded nesting", "anchors": ["std_json.go:tryStdMarshal", "std_json.go:tryStdUnmarshal", "std_json.go:indirectStdMarshaler", "marshal.go:marshalTime", "unmarshal.go:callStructAfterUnmarshal"]}
{"id": "C71", "title": "Which texts are numbers", "statement": "Int() of a text returns n exactly if the text is an optional sign and decimal digits denoting n within 64 bits; Float() returns x exactly if the text is a Go floating point literal with an optional sign (decimal, or hexadecimal with obligatory p exponent; underscores only between digits or after the prefix) whose value rounds to x, or one of the words inf, infinity (with optional sign), nan in any letter case; every other text, and every number beyond the range, is an error. The same decides what a bare word in a document means, and, after the clearing of currency grouping, what Unmarshal stores from a text in int, uint, float64 and float32 variables (uint: digits without sign below 2^64; float32: the float32 nearest to the double, or an infinity).", "quantifier": "all texts, all variables", "why_tests_cant": "The set of numeral texts is infinite; which exotic texts are taken as numbers (underscores, hex, inf) decides the type of a value silently.", "anchors": ["jsonutils.go:parseJSONValue", "access.go:JSONString.Int", "access.go:JSONString.Float", "unmarshal.go:JSONString._unmarshalValue"]}
{"id": "C72", "title": "Marshal of maps: keys and iteration order", "statement": "Marshal of a Go map gives a dictionary in which every entry that is not dropped as empty is found under its key as fmt prints it with %s: the text itself for keys of string kind without methods (nothing else is there), the result of the String or Error method if the key type has one, and '%!s(int=5)' for integers (so never under '5'). Entries whose keys are printed alike are lost but for the one that sorts last. The document does not depend on the order in which Go lists the map: for keys of string kind always, ids and references and cyclic values included; for any other keys if the value is acyclic and no two keys are printed alike. For integer keys of maps of pointers in a cycle it does depend on it: which entry holds a node and which a reference changes from run to run.", "quantifier": "all values with maps of any key kind, all iteration orders of Go maps, all behaviours of sort.Sort on ties", "why_tests_cant": "Go randomises map iteration; a test sees a few orders of a few maps, and rarely maps of pointers with shared nodes.", "anchors": ["marshal.go:marshalMap", "marshal.go:tMapKeys", "access.go:NewDict"]}
{"id": "C73", "title": "JSONDeserialize", "statement": "JSONDeserialize(t, s) for the three types the package registers returns, for every text s: as JSONObject the document s denotes; as *JSONDict (*JSONArray) the dictionary (array) s denotes; a type mismatch for quoted and bare texts and the other container; the error of Parse where Parse fails, and it panics exactly where Parse panics; other types are an error. The text of every document without references is deserialised to that document. FINDINGS: a number, boolean, null or reference silently deserialises to the empty dictionary or array; the node id of the outermost dictionary is dropped, so references to it dangle.", "quantifier": "all texts, all three types", "why_tests_cant": "all texts", "anchors": ["reflect.go:JSONDeserialize", "reflect.go:init"]}
{"id": "C74", "title": "Concurrent String() on shared documents", "statement": "Any number of goroutines call String() on documents in one memory, the same or different ones, sharing sub-documents and floats in any way. Whatever the schedule of their steps (visits of objects, reads and writes of float widths): each obtains the text a sequential call returns; each returns after a number of its own steps that depends on its document alone; and memory changes only in that some float widths that were neither 32 nor 64 become 64, so every document keeps its text. (Assumes atomic sequentially consistent reads and writes of machine words; for the Go memory model this is a data race.)", "quantifier": "all memories, documents, sharing patterns, numbers of goroutines and schedules", "why_tests_cant": "all interleavings", "anchors": ["string.go:String", "write.go:buildString"]}
{"id": "C75", "title": "YAML conversion", "statement": "ParseYAML(s) returns the document denoted by the JSON text the YAML library makes of s, and its error if the library fails. YAMLString hands the library a valid JSON text (for documents without references, NaN and infinities). If the library keeps the meaning of that text (as some JSON text, whatever its spelling), ParseYAML(v.YAMLString()) is v. YAMLString swallows errors of the library and returns the empty text.", "quantifier": "all documents and texts, every YAML library meeting the contract", "why_tests_cant": "all documents", "anchors": ["yamlutils.go:ParseYAML", "yamlutils.go:yamlString"]}
{"id": "C76", "title": "PrettyString puts one entry on a line, String is one line", "statement": "String() contains no line break or other control character whatever the document holds. PrettyString() puts every array element and every dictionary entry on lines of its own, two blanks for each level, opening and closing bracket of a non-empty container on lines of their own at the same level, containers below their key one level deeper; no text in the document can break a line (a key can: keys are written raw, finding). For scalars PrettyString is String.", "quantifier": "every document", "why_tests_cant": "the layout is a function of arbitrarily nested documents with arbitrary bytes in keys and texts", "anchors": ["jsonutils.go: prettyString, jsonPrettyString, PrettyString, quoteString", "write.go: buildString"]}
{"id": "C77", "title": "Documents containing nil, and documents containing themselves", "statement": "What a variable holds spells a document exactly if no object below it contains itself and no variable below it is nil. On any memory: String(), PrettyString() and Interface() return exactly on documents, with the document's text, pretty text or Go value; on a graph without cycles they panic if there is a nil anywhere in it; on a nil-free graph with a cycle they never return. Get(keys...) on a dictionary returns what the keys lead to; it panics (and so does Contains) exactly if they lead to a nil entry, and reports ErrInvalidJsonDict if they lead through something that is no dictionary, nil included, ErrJsonDictKeyNotFound otherwise. GetAt(i) of an array returns a nil element like any other and never panics. DeepCopy of a graph without cycles panics exactly if some dictionary in it has a nil entry. Equals returns whenever the receiver has no cycle and no nil and the argument no nil dictionary entry. On documents Get, GetAt, GetMap and Equals in memory do what they do on the document. A document with a reference pointer inside has a deep copy on which String(), PrettyString() and Interface() panic. Findings: Contains panics on a key set to nil; [1].Equals([nil]) is false but [nil].Equals([1]) panics.", "quantifier": "all memories (sharing, cycles, nils), all addresses, all key lists and indices", "why_tests_cant": "nils and cycles can sit at any depth, reached through any sharing", "anchors": ["clone.go:DeepCopy", "access.go:_get", "access.go:GetMap", "access.go:GetAt", "equals.go", "write.go", "interface.go", "jsonutils.go:prettyString"]}
{"id": "C78", "title": "Dictionaries made from dictionaries share values and nothing else", "statement": "Copy/CopyExcludes/CopyIncludes return a new dictionary with exactly the selected entries, holding the very same objects, and change nothing that existed; they panic exactly if a selected entry is nil. Update and UpdateDefault change the receiver only. Diff returns four different new dictionaries, changes nothing that existed, puts the very objects of a and b into them (under an unequal common key a new array, its own, of the two), ends whenever the values of a are free of cycles, and panics on a common key that holds nil on either side. Finding: Diff, Copy and CopyIncludes panic on nil entries that Set accepts.", "quantifier": "all memories (nil entries, sharing, cycles in b), all dictionaries and key lists", "why_tests_cant": "aliasing and panics over all object graphs", "anchors": ["clone.go:CopyExcludes", "clone.go:CopyIncludes", "dict.go:Diff", "dict.go:Update", "dict.go:UpdateDefault"]}
{"id": "C79", "title": "Editing a part of a document in memory edits the whole, exactly there", "statement": "Get returns the object itself: a change made to it (Set, Remove, SetAt, array Add, Update) shows in every document in memory at exactly the positions where that very object occurs, every other position keeping its value and every enclosing value its kind, length and keys; reading the root again along the same keys gives the new entry. Add(o, path...) that succeeds changes one existing dictionary on its path, whatever objects are shared, and puts the new value below new dictionaries for the remaining keys; Add that fails changes nothing, returns ErrInvalidJsonDict, and the path meets something that is neither a dictionary nor the shared null.", "quantifier": "all memories, all documents in them with any sharing, all key paths, all changing calls whose result still spells a document", "why_tests_cant": "Needs every sharing pattern and every position of every document; tests fix one small tree.", "anchors": ["access.go: JSONDict.Set, JSONDict.Add, JSONDict.Remove, JSONArray.SetAt, JSONArray.Add, JSONDict.Get", "dict.go: JSONDict.Update"]}
{"id": "C80", "title": "Every history of calls keeps memory in order", "statement": "Whatever sequence of constructors, Set, Remove, SetAt, array Add, Add along a path, Update, Copy, CopyExcludes, DeepCopy and String calls a program makes, with arguments that exist: no variable dangles, the shared null, true and false stay what they were, and the keys of every dictionary stay sorted and distinct. If the program moreover puts no nil variable into documents and never puts something into itself, then after every such history each object in memory spells a document (no cycle, no nil, no reference, numbers in range) and String of it returns the text of that document. Setting a key of a dictionary leaves a document exactly if the value does not contain the dictionary; otherwise String of it never returns.", "quantifier": "all finite histories of calls from the initial memory, all arguments", "why_tests_cant": "Histories are unbounded and interleave mutation, sharing and copying arbitrarily.", "anchors": ["jsonutils.go: NewDict, NewArray, JSONNull, JSONTrue, JSONFalse", "access.go: Set, Add, Remove, SetAt", "dict.go: Update", "clone.go: DeepCopy, Copy, CopyExcludes", "string.go: String"]}
{"id": "C81", "title": "Unmarshal into document-typed variables shares the objects of the document, and may overwrite objects", "statement": "Unmarshal into a variable with parts of types JSONObject, *JSONDict, *JSONArray, *JSONString, *JSONInt, *JSONFloat, *JSONBool: if none of its *JSONString, *JSONInt, *JSONBool parts points to an object yet, the result, read as documents, is the one described for Unmarshal (C52 to C60), and no object in memory changes (also with deprecated-by fields, in struct types without such parts); and, without deprecated-by fields, each such part holds the very object that the document has at its position (nil for null), so that whatever call later edits the object through the variable edits the document there. In general only objects that such a part points to, or that belong to the document, can change, and only scalars into scalars of their kind. They do change: a number or boolean put into a *JSONString, a float into a *JSONInt, a text into a *JSONBool that already points to an object overwrites that object, in every document that contains it; since all true come from one object, a *JSONBool variable that received true and then a text like \"no\" turns every true in the program into false; and with deprecated-by fields Unmarshal can change the document it is reading.", "quantifier": "all memories and documents without references, all types made of these, basic types, pointers, slices, string-keyed maps and structs, all previous values of the variable, all keys", "why_tests_cant": "The sharing must hold at every position of every document for every type, and the effects of later calls depend on everything else in memory.", "anchors": ["unmarshal.go: unmarshalValue of all types, Unmarshal", "std_json.go:25-83", "jsonutils.go: JSONTrue, JSONFalse", "access.go: Set, Add, Remove"]}
{"id": "C82", "title": "Marshal of document-typed variables puts the documents themselves, not copies, into its result", "statement": "Marshal and MarshalAll of a variable with parts of types JSONObject, *JSONDict, *JSONArray, *JSONString, *JSONInt, *JSONFloat, *JSONBool: the result, read as a document, is the one described for Marshal (C38 to C43) and no object in memory changes; each document that the variable holds, not below a field with option string, is in the result as the very object, at the position that belongs to its place (elements of slices are counted without the nil ones that Marshal drops; a deprecated field holds the object of the field that replaces it, so the same object is under both keys); apart from those documents and JSONNull, JSONTrue, JSONFalse everything in the result is new. Hence a later call that edits such a document edits it in the result and in the variable alike, and a later call that edits any other part of the result leaves the variable as it is.", "quantifier": "all memories, all types made of these, basic types, pointers, slices, string-keyed maps and structs (deprecated-by fields included), all values without pointer cycles, all positions, all later calls", "why_tests_cant": "The sharing must hold at every position of every value of every type, and the effects of later calls depend on everything else in memory.", "anchors": ["marshal.go: marshalSlice, marshalMap, marshalStruct, struct2JSONPairs, _marshalValue, Marshal, MarshalAll", "dict.go: NewDict", "jsonutils.go: JSONNull, JSONTrue, JSONFalse"]}
{"id": "C83", "title": "Query strings with dotted keys build the tree they spell", "statement": "A query string whose keys have no numbers behind their first dot (and canonical numbers before it) is never an error. In the result, following the pieces of a key one arrives at the text of its value, or at the array of its texts in order if the key is repeated, unless another key of the query string stops on the way (then the parameter is dropped without an error); there is nothing else in the result but the dictionaries on the way to those values. So if no key continues another, Get with the pieces of a key finds its value. With numbers this fails (witnesses): an index appends to the array of a repeated key, 0 makes an array, a gap drops the parameter, a non-canonical number is an error.", "quantifier": "all query strings with such keys, in any order and escaping, any number of parameters and depth of nesting", "why_tests_cant": "The tree must be right for every set of keys, every nesting and every order of the parameters.", "anchors": ["querystring.go: addQueryStringSeg, parseQueryString, ParseQueryString", "stringsegment.go: string2Segments, sStringSegments.Less"]}
{"id": "C84", "title": "How large documents and texts can get", "statement": "Parse does not amplify: the document has at most as many values, and is nested at most as deep, as the text has bytes; its values plus the bytes of all its strings and keys are at most one more than the bytes of the text (reached by a bare word). The depth is not limited: n opening brackets nest n deep. String writes at most 6 bytes for a byte of a string or key plus 331 bytes for each value (37 without floats; a float takes at most 327 bytes, an integer 20), so parsing and writing back grows a text by at most a constant factor. PrettyString is bounded by that plus 12 bytes per value and level, and is quadratic on nested arrays. Marshal is exponential on shared pointers without a cycle: n+1 slices with at most two pointers each give 2^(n+1)-1 values.", "quantifier": "all texts, all documents, all n", "why_tests_cant": "Bounds must hold for every input; tests see only particular sizes.", "anchors": ["jsonutils.go: Parse, parseDict, parseArray, parseQuoteString, quoteString, prettyString", "string.go", "write.go: buildString", "marshal.go: marshalValueWithObjectMap", "json_pointer_trace.go: find, pop"]}
{"id": "C85", "title": "Documents put in one place behave like values", "statement": "A program that gives away what it puts into a document (it keeps no second reference to it) cannot tell the objects in memory from plain values: for every program that builds documents, calls Set, SetAt, array Add, Add along a path, Update, UpdateDefault and Remove on the receivers at any positions, takes parts out, and calls String, PrettyString, Equals, GetString, Contains, IsZero, Length and QueryString, everything reported is what the same program reports on a machine where assignment copies and nothing is shared, and every variable holds the same document at the end. With DeepCopy among the calls the same holds, for every iteration order of the maps, as long as no Add path leads through a null; with such a path it fails, because a null inside a copy is an obstacle for Add and the original null is not.", "quantifier": "all programs over these calls, all documents in them, all positions, all map iteration orders", "why_tests_cant": "Aliasing bugs show only for particular combinations of calls; the claim is over every program.", "anchors": ["access.go: Set, Add, Remove, Update, SetAt, Get, GetAt", "jsonutils.go: JSONDict, JSONArray, JSONNull", "clone.go: DeepCopy", "equals.go: Equals", "string.go"]}
{"id": "C86", "title": "The remaining readers in memory", "statement": "On objects in memory, GetString, Int, Float, Bool, GetTime, GetArray, GetIgnoreCases, ContainsIgnoreCases, IsZero, Length and QueryString give on a document what they give on the document, with parts shared or not. On any memory, nil references and cycles included: the readers with keys on a dictionary panic exactly if the keys lead to a nil entry (GetString also if String of what they lead to panics), GetIgnoreCases and ContainsIgnoreCases exactly if the keys lead to nil up to case; IsZero and Length of arrays and dictionaries count nil entries like others, and calls on nil panic; Int, Float and Bool of a dictionary without keys, or with keys that lead to a dictionary, never return; QueryString of a dictionary returns exactly if the dictionary spells a document, panics if there is a nil inside and no cycle, and never returns on a nil-free graph with a cycle; of anything but a dictionary it is the empty text.", "quantifier": "all memories (nils, sharing, cycles), all objects in them, all key lists, all case foldings", "why_tests_cant": "Which graphs make a reader panic or hang is a claim over all graphs.", "anchors": ["access.go: GetString, Int, Float, Bool, GetTime, GetArray, GetIgnoreCases, ContainsIgnoreCases, IsZero, Length", "jsonutils.go: JSONDict", "querystring.go: QueryString"]}
{"id": "C87", "title": "Copying a variable through Marshal and Unmarshal", "statement": "Marshal (or MarshalAll) a variable with parts of types JSONObject, *JSONDict, *JSONArray, *JSONString, *JSONInt, *JSONFloat, *JSONBool and Unmarshal the result into a fresh variable of the type: the copy reads as C38 says, no object in memory is changed, and where the variable held a document (not JSONNull) the copy holds the very same object, so the copy is a shallow one. With DeepCopy of the document in between the copy reads the same but nothing that can be reached from it existed before: no later history of calls made through older objects changes the copy, and none made through the copy changes the variable. In general, whatever the document, keys, variable and type, each object a variable holds after Unmarshal is one it held before, or part of the document, or new.", "quantifier": "all types of C38 (without interface{}, deprecated-by) with document-typed parts, all variables, memories, documents, all later call histories; the last sentence: all calls of Unmarshal", "why_tests_cant": "aliasing over all types, memories and later histories", "anchors": ["marshal.go: Marshal, MarshalAll", "unmarshal.go: Unmarshal", "clone.go: DeepCopy", "jsonutils.go: JSONNull"]}
{"id": "C88", "title": "Interface() and Marshal are inverse", "statement": "MarshalAll(v.Interface()) always returns, and gives v back but for what a Go value cannot hold: node ids are gone, references are null, and a number that came from a float32 is a float64. So it is v itself for a document without those, and Equals to v for one without references and NaN. Marshal(v.Interface()) gives the same without the elements and entries that are nil, at any depth (null itself stays null): nothing inside what it returns is null, and where no nil is inside the value the two calls agree. Conversely every Go value made of nil, booleans, int64, float64, strings, non-nil []interface{} and map[string]interface{} is what Interface() of its MarshalAll returns. The order in which Go lists maps plays no role.", "quantifier": "all documents; all Go values of that kind; all iteration orders", "why_tests_cant": "all documents, depths and iteration orders", "anchors": ["interface.go:Interface", "marshal.go:Marshal", "marshal.go:MarshalAll"]}
{"id": "C89", "title": "Embedded pointers to structs", "statement": "Unmarshal of a dictionary into a struct that embeds other structs by pointers which may be nil: the fields and the error are those of the struct that had all the fields itself. A pointer that was set remains set; one that was nil is set only if some key of the dictionary leads to a field of its struct, directly or through deprecated-by options, and it is set if one does and no error occurs (also if the value is null), and even with errors if the key matches just that field. Whatever the errors, no field of a struct that is not there is written, so no value is lost.", "quantifier": "all struct types, dictionaries and previous values; which fields belong to which pointer is arbitrary", "why_tests_cant": "all struct types, documents and errors", "anchors": ["unmarshal.go:setStructFieldAt", "unmarshal.go:unmarshalStruct"]}
{"id": "C90", "title": "Fields under several names", "statement": "When a dictionary is unmarshalled without errors into a struct with deprecated-by options, every field receives the documents of all keys that stand for it - its own name, and the old names that lead to it - one after the other in the order in which the dictionary holds the keys, and nothing else. A key that alone stands for a field fills it whatever its name; a boolean, number or text ends as what the last of the keys holds. Finding: since keys are sorted, the value under an old name wins over the one under the new name when the old name sorts after it.", "quantifier": "all struct types whose keys do not lead to two names of one field, all dictionaries and all previous values", "why_tests_cant": "all tag graphs, dictionaries and previous values", "anchors": ["unmarshal.go:setStructFieldAt", "unmarshal.go:unmarshalStruct"]}
