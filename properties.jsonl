{"id": "C01", "title": "Claim is exclusive and exact", "statement": "On a table created with size >= 1, Claim(id,d) succeeds iff id < size and id is not claimed; on success Get(id) returns d and every other id keeps its state; on failure nothing changes.", "quantifier": "every table state, id, payload", "why_tests_cant": "the domain of ids, payloads and prior histories is unbounded", "anchors": ["pkg/idxtable/table.go:Claim", "pkg/idxtable/table.go:add", "pkg/idxtable/table.go:validate", "pkg/idxtable/table.go:Get"]}
{"id": "C02", "title": "The index table is a bounded partial map", "statement": "For every sequence of calls (Claim, ClaimDynamic, ClaimRange, ClaimSize, Release, Update, Get, Has, IsFree, Size, FindFree, FindFreeSize, GetAll) on NewTable(size), size >= 1, the returned values and errors are those of an abstract partial map from [0,size) to payloads.", "quantifier": "every finite call history and every size", "why_tests_cant": "histories are unbounded; a test fixes one history", "anchors": ["pkg/idxtable/table.go:table"]}
{"id": "C03", "title": "Release frees exactly one id and is idempotent", "statement": "Release(id) with id < size never fails; afterwards id is free and claimable again, all other ids are unchanged; releasing a free id changes nothing; an out of range id is rejected without effect.", "quantifier": "every table state and id", "why_tests_cant": "quantifies over all states", "anchors": ["pkg/idxtable/table.go:Release", "pkg/idxtable/table.go:delete"]}
{"id": "C04", "title": "Update never creates an entry", "statement": "Update(id,d) succeeds iff id is in range and claimed; on success exactly the payload of id changes, the set of claimed ids does not change; on failure nothing changes.", "quantifier": "every table state, id, payload", "why_tests_cant": "quantifies over all states", "anchors": ["pkg/idxtable/table.go:Update", "pkg/idxtable/table.go:update"]}
{"id": "C05", "title": "ClaimDynamic allocates the smallest free id", "statement": "ClaimDynamic(d) returns the smallest unclaimed id below size and claims it with d; it fails iff all ids in [0,size) are claimed, changing nothing.", "quantifier": "every table state and payload", "why_tests_cant": "every fill pattern, every size", "anchors": ["pkg/idxtable/table.go:ClaimDynamic", "pkg/idxtable/table.go:iterateFree"]}
{"id": "C06", "title": "ClaimSize is all or nothing and lowest first", "statement": "For n >= 1 ClaimSize(n,d) succeeds iff at least n ids are free; then it claims exactly the n smallest free ids with d, returned ascending; otherwise the table is unchanged.", "quantifier": "every table state, n and payload", "why_tests_cant": "every fill pattern", "anchors": ["pkg/idxtable/table.go:ClaimSize", "pkg/idxtable/table.go:findFreeSize"]}
{"id": "C07", "title": "FindFreeRange/ClaimRange return the requested contiguous range or an error", "statement": "ClaimRange(start,size,d) either claims exactly start..start+size-1, all of which were free and inside the table, or fails.", "quantifier": "every table state, start and size (uint64)", "why_tests_cant": "corner cases depend on fill pattern, on size 1, and on uint64 wrap-around", "anchors": ["pkg/idxtable/table.go:ClaimRange", "pkg/idxtable/table.go:findFreeRange", "pkg/idxtable/iterator.go:IsConsecutive"]}
{"id": "C08", "title": "ClaimRange never overwrites and is atomic", "statement": "Whatever it returns, ClaimRange never changes the payload of an id that was already claimed, on error the table is unchanged, and on success exactly the ids FindFreeRange reports (all free, in bounds, ascending, without duplicates, >= start) become claimed with d.", "quantifier": "every table state, start, size and payload", "why_tests_cant": "quantifies over all states and all (wrapping) arguments", "anchors": ["pkg/idxtable/table.go:ClaimRange", "pkg/idxtable/table.go:findFreeRange"]}
{"id": "C09", "title": "Claimed ids stay in bounds and Size counts them", "statement": "After any call history on NewTable(size), size >= 1, every claimed id is < size, Size() equals the number of claimed ids, and Size() <= size.", "quantifier": "every finite call history", "why_tests_cant": "invariant over unbounded histories", "anchors": ["pkg/idxtable/table.go:validate", "pkg/idxtable/table.go:Size"]}
{"id": "C10", "title": "Iteration is complete, duplicate free and ordered", "statement": "Iterate/GetAll visit every claimed id exactly once, in strictly ascending order, whatever order the Go map yields its keys in.", "quantifier": "every table state and every map iteration order", "why_tests_cant": "Go randomises map order; a test samples a few", "anchors": ["pkg/idxtable/table.go:iterate", "pkg/idxtable/table.go:GetAll", "pkg/idxtable/iterator.go:Next"]}
{"id": "C11", "title": "Free iteration is the complement", "statement": "IterateFree visits exactly the ids in [0,size) that are not claimed, each once, ascending; FindFree returns its first element.", "quantifier": "every table state", "why_tests_cant": "every fill pattern", "anchors": ["pkg/idxtable/table.go:iterateFree", "pkg/idxtable/table.go:FindFree"]}
{"id": "C12", "title": "Has, IsFree and Get agree", "statement": "On any table, IsFree(id) = not Has(id); for size >= 1 Get(id) succeeds iff id < size and Has(id); after any history, Has(id) is false for every id >= size.", "quantifier": "every reachable state and id", "why_tests_cant": "all states", "anchors": ["pkg/idxtable/table.go:Has", "pkg/idxtable/table.go:IsFree", "pkg/idxtable/table.go:Get"]}
{"id": "C13", "title": "An iterator is a snapshot", "statement": "Values delivered by an Iterator are those at the time Iterate was called, independent of later calls.", "quantifier": "every state, later history and iterator position", "why_tests_cant": "depends on what happens between Iterate and Value", "anchors": ["pkg/idxtable/iterator.go:Value", "pkg/idxtable/table.go:iterate"]}
{"id": "C14", "title": "A table of capacity zero rejects every claim", "statement": "On NewTable(0) every Claim fails.", "quantifier": "every id and payload", "why_tests_cant": "uint64 underflow of size-1", "anchors": ["pkg/idxtable/table.go:NewTable", "pkg/idxtable/table.go:validate"]}
{"id": "C15", "title": "A ranged table is a partial map on [start,end]", "statement": "For start <= end where [start,end] is not the full integer range, every history of Claim/Release/Update/Get/Has/IsFree/Size on table16/32/64 behaves as a partial map from [start,end] to label sets; ids outside are rejected without effect.", "quantifier": "every start<=end, every history, all three widths", "why_tests_cant": "unbounded histories and ranges", "anchors": ["pkg/table/table16/table16.go:table16", "pkg/table/table32/table32.go:table32", "pkg/table/table64/table64.go:table64"]}
{"id": "C16", "title": "FindFree and ClaimFree return the lowest free id of the range", "statement": "FindFree returns the smallest id in [start,end] that is free (so IsFree holds for it) and fails iff none is; ClaimFree claims exactly that id with the given labels and returns it.", "quantifier": "every start<=end (not the full range) and every reachable state", "why_tests_cant": "all fill patterns", "anchors": ["pkg/table/table16/table16.go:FindFree", "pkg/table/table16/table16.go:ClaimFree", "pkg/table/table32/table32.go:ClaimFree", "pkg/table/table64/table64.go:ClaimFree"]}
{"id": "C17", "title": "A full range table allocates", "statement": "For New(0,max) FindFree/ClaimFree succeed while some id is free.", "quantifier": "every state of the full range table, each width", "why_tests_cant": "the size computation wraps to 0", "anchors": ["pkg/table/table16/table16.go:New", "pkg/table/table32/table32.go:New", "pkg/table/table64/table64.go:New"]}
{"id": "C18", "title": "Get returns the entry under its own id", "statement": "Get(id) of a claimed id returns an entry whose ID() is id and whose labels are the last claimed or updated.", "quantifier": "every start<=end, state, id", "why_tests_cant": "depends on start; tests only use Has", "anchors": ["pkg/table/table16/table16.go:Get", "pkg/table/table16/table16.go:Claim", "pkg/table/table32/table32.go:Get", "pkg/table/table64/table64.go:Get"]}
{"id": "C19", "title": "GetAll reports external ids", "statement": "GetAll returns, ascending and without duplicates, one entry per claimed id, carrying that external id and its labels.", "quantifier": "every start<=end and reachable state", "why_tests_cant": "all histories", "anchors": ["pkg/table/table16/table16.go:GetAll", "pkg/table/table32/table32.go:GetAll", "pkg/table/table64/table64.go:GetAll"]}
{"id": "C20", "title": "GetByLabel is the filter of GetAll", "statement": "GetByLabel(sel) returns exactly the entries of GetAll whose labels match sel, in the same order and with external ids.", "quantifier": "every reachable state and every selector", "why_tests_cant": "all selectors, all states", "anchors": ["pkg/table/table16/table16.go:GetByLabel", "pkg/table/table32/table32.go:GetByLabel", "pkg/table/table64/table64.go:GetByLabel"]}
{"id": "C21", "title": "An inverted range accepts nothing", "statement": "If end < start every Claim, Update, Get and Release fails, Has and IsFree are false, ClaimFree fails, and the table stays empty.", "quantifier": "every end<start, every history", "why_tests_cant": "size wraps to a large number", "anchors": ["pkg/table/table16/table16.go:New", "pkg/table/table16/table16.go:validateID"]}
{"id": "C22", "title": "Distinct addresses never share a slot", "statement": "Two different addresses of the table's range are claimed, updated and released independently.", "quantifier": "every range, every pair of addresses", "why_tests_cant": "the index is truncated to 64 bits; only huge IPv6 ranges show it", "anchors": ["pkg/iptable/iptable.go:calculateIndex", "pkg/iptable/iptable.go:numIPs"]}
{"id": "C23", "title": "The IP table is a partial map on its address range", "statement": "For a valid range of fewer than 2^64 addresses, every history of Claim/Release/Update/Get/Has/IsFree/Size behaves as a partial map from the addresses of the range to routes.", "quantifier": "every such range (IPv4 or IPv6) and every history", "why_tests_cant": "unbounded", "anchors": ["pkg/iptable/iptable.go:ipTable"]}
{"id": "C24", "title": "FindFree returns the lowest free address", "statement": "FindFree returns the lowest unclaimed address of the range, in the range's family, and fails iff all are claimed.", "quantifier": "every range of fewer than 2^64 addresses, every reachable state", "why_tests_cant": "address arithmetic over 128 bits", "anchors": ["pkg/iptable/iptable.go:FindFree", "pkg/iptable/iptable.go:calculateIPFromIndex"]}
{"id": "C25", "title": "Addresses outside the range are rejected without effect", "statement": "Unparsable, zoned, other-family or out-of-range addresses make Claim/Update/Release/Get fail, Has/IsFree return false, and leave the table unchanged.", "quantifier": "every range, state and string", "why_tests_cant": "all strings", "anchors": ["pkg/iptable/iptable.go:validateIP"]}
{"id": "C26", "title": "GetAll and GetByLabel of the IP table", "statement": "GetAll returns the routes in ascending address order, one per claimed address; GetByLabel is its filter by the selector.", "quantifier": "every state and selector", "why_tests_cant": "all states", "anchors": ["pkg/iptable/iptable.go:GetAll", "pkg/iptable/iptable.go:GetByLabel"]}
{"id": "C27", "title": "Overlaps means the blocks intersect", "statement": "For lengths up to the width, a.Overlaps(b) iff the sets of ids covered by the two prefixes intersect iff one contains the other.", "quantifier": "all pairs of ids and lengths, widths 16/32/64", "why_tests_cant": "2^80 pairs", "anchors": ["pkg/tree/id32/id32.go:Overlaps", "pkg/tree/id16/id16.go:Overlaps", "pkg/tree/id64/id64.go:Overlaps"]}
{"id": "C28", "title": "Compare is a total order", "statement": "Compare returns 0 iff equal, is antisymmetric and transitive, orders by length then value; Less is the induced strict order.", "quantifier": "all ids", "why_tests_cant": "all triples", "anchors": ["pkg/tree/id32/id32.go:Compare", "pkg/tree/id16/id16.go:Compare", "pkg/tree/id64/id64.go:Compare"]}
{"id": "C29", "title": "Next and Prev are successor and predecessor", "statement": "Next(id) is id+1 with the same length, and the zero ID when there is none; Prev(id) is id-1, and the zero ID when there is none; they are inverse away from the ends.", "quantifier": "all ids, widths 16/32/64", "why_tests_cant": "the whole integer range including the maximum", "anchors": ["pkg/tree/id32/id32.go:Next", "pkg/tree/id16/id16.go:Next", "pkg/tree/id64/id64.go:Next", "pkg/tree/id32/myuint32.go:addOne", "pkg/tree/id16/myuint16.go:addOne", "pkg/tree/id64/myuint64.go:addOne", "pkg/tree/id32/myuint32.go:subOne", "pkg/tree/id16/myuint16.go:subOne", "pkg/tree/id64/myuint64.go:subOne"]}
{"id": "C30", "title": "Mask clears exactly the host bits", "statement": "Mask(l) keeps the first l bits, clears the rest, sets length l, fails iff l exceeds the width; Masked is idempotent.", "quantifier": "all ids and lengths, widths 16/32/64", "why_tests_cant": "all ids", "anchors": ["pkg/tree/id32/id32.go:Mask", "pkg/tree/id16/id16.go:Mask", "pkg/tree/id64/id64.go:Mask", "pkg/tree/id32/myuint32.go:mask6", "pkg/tree/id16/myuint16.go:mask6", "pkg/tree/id64/myuint64.go:mask6"]}
{"id": "C31", "title": "RangeOfID and LastID give the block of a prefix", "statement": "RangeOfID(id) is [first,last] of the set of ids sharing id's first length bits; LastID is its last element.", "quantifier": "all ids and lengths <= width", "why_tests_cant": "all ids", "anchors": ["pkg/tree/id32/range32.go:RangeOfID", "pkg/tree/id16/range16.go:RangeOfID", "pkg/tree/id64/range64.go:RangeOfID", "pkg/tree/id32/range32.go:LastID", "pkg/tree/id16/range16.go:LastID", "pkg/tree/id64/range64.go:LastID"]}
{"id": "C32", "title": "Range.IDs partitions the range", "statement": "For from <= to, IDs() is a list of aligned prefixes, ascending and disjoint, whose blocks cover exactly from..to.", "quantifier": "all from <= to, widths 16/32/64", "why_tests_cant": "2^31 or more ranges", "anchors": ["pkg/tree/id32/range32.go:appendRangeIDs", "pkg/tree/id16/range16.go:appendRangeIDs", "pkg/tree/id64/range64.go:appendRangeIDs", "pkg/tree/id32/range32.go:compareIDs", "pkg/tree/id16/range16.go:compareIDs", "pkg/tree/id64/range64.go:compareIDs"]}
{"id": "C33", "title": "Range.IDs is minimal", "statement": "No list of prefixes covering exactly from..to is shorter than IDs(); every prefix block inside from..to lies inside a listed one.", "quantifier": "all from <= to and all competing covers", "why_tests_cant": "quantifies over all covers", "anchors": ["pkg/tree/id32/range32.go:appendRangeIDs", "pkg/tree/id16/range16.go:appendRangeIDs", "pkg/tree/id64/range64.go:appendRangeIDs"]}
{"id": "C34", "title": "ParseRange inverts String and rejects everything else", "statement": "ParseRange(RangeFrom(a,b).String()) = RangeFrom(a,b); ParseRange fails iff the text is not two decimal numbers that fit the width, separated by the first hyphen.", "quantifier": "all ranges and all strings", "why_tests_cant": "all strings", "anchors": ["pkg/tree/id32/range32.go:ParseRange", "pkg/tree/id16/range16.go:ParseRange", "pkg/tree/id64/range64.go:ParseRange", "pkg/tree/id32/range32.go:String", "pkg/tree/id16/range16.go:String", "pkg/tree/id64/range64.go:String"]}
{"id": "C35", "title": "Range position predicates", "statement": "EntirelyBefore, CoveredBy, InMiddleOf, OverlapsStartOf, OverlapsEndOf decide the corresponding relation between the two intervals, and for any two valid ranges at least one case of the builder's switch applies.", "quantifier": "all pairs of valid ranges", "why_tests_cant": "all pairs", "anchors": ["pkg/tree/id32/range32.go:EntirelyBefore", "pkg/tree/id16/range16.go:EntirelyBefore", "pkg/tree/id64/range64.go:EntirelyBefore"]}
{"id": "C36", "title": "The set builder computes set algebra", "statement": "After any sequence of AddRange/AddId/AddSet/RemoveRange/RemoveId on valid arguments, IPSet contains exactly the ids obtained by performing the unions and differences in order.", "quantifier": "all operation sequences, widths 16/32/64", "why_tests_cant": "unbounded sequences; merge order and overflow corner cases", "anchors": ["pkg/tree/id32/idset.go:normalize", "pkg/tree/id16/idset.go:normalize", "pkg/tree/id64/idset.go:normalize", "pkg/tree/id32/range32.go:mergeRanges", "pkg/tree/id16/range16.go:mergeRanges", "pkg/tree/id64/range64.go:mergeRanges"]}
{"id": "C37", "title": "IPSet is canonical", "statement": "The ranges of an IPSet are valid, strictly ascending, pairwise disjoint and non-adjacent, so equal sets have equal range lists, whatever order the operations came in.", "quantifier": "all operation sequences", "why_tests_cant": "unbounded", "anchors": ["pkg/tree/id32/idset.go:normalize", "pkg/tree/id16/idset.go:normalize", "pkg/tree/id64/idset.go:normalize", "pkg/tree/id32/idset.go:Ranges", "pkg/tree/id16/idset.go:Ranges", "pkg/tree/id64/idset.go:Ranges"]}
{"id": "C38", "title": "The builder never panics", "statement": "Neither the 'invalid IPRanges' nor the 'unexpected additional overlap scenario' panic is reachable through the public API with ranges of the package.", "quantifier": "all operation sequences", "why_tests_cant": "absence of panics on all inputs", "anchors": ["pkg/tree/id32/idset.go:normalize", "pkg/tree/id16/idset.go:normalize", "pkg/tree/id64/idset.go:normalize"]}
{"id": "C39", "title": "Invalid arguments are reported and ignored", "statement": "AddRange/RemoveRange with an invalid range do not change the set; the next IPSet call returns a non-nil error and the following one, with no new invalid argument, returns nil.", "quantifier": "all operation sequences", "why_tests_cant": "unbounded sequences", "anchors": ["pkg/tree/id32/idset.go:AddRange", "pkg/tree/id16/idset.go:AddRange", "pkg/tree/id64/idset.go:AddRange", "pkg/tree/id32/idset.go:IPSet", "pkg/tree/id16/idset.go:IPSet", "pkg/tree/id64/idset.go:IPSet"]}
{"id": "C40", "title": "RemoveFreePrefix", "statement": "RemoveFreePrefix(l) succeeds iff some aligned block of length l lies in the set; it then returns such a block, taken from the tightest free prefix, and the set without it.", "quantifier": "all sets, all l <= width", "why_tests_cant": "all sets", "anchors": ["pkg/tree/id32/idset.go:RemoveFreePrefix", "pkg/tree/id16/idset.go:RemoveFreePrefix", "pkg/tree/id64/idset.go:RemoveFreePrefix"]}
{"id": "C41", "title": "IDSet.IDs covers the set", "statement": "IDs() of a set is an ascending list of disjoint aligned prefixes covering exactly the set.", "quantifier": "all sets", "why_tests_cant": "all sets", "anchors": ["pkg/tree/id32/idset.go:IDs", "pkg/tree/id16/idset.go:IDs", "pkg/tree/id64/idset.go:IDs"]}
{"id": "C42", "title": "The prefix tree is a map from prefixes to values", "statement": "For every history of Set and Delete with lengths <= width, the values found by iteration are exactly those of an abstract map keyed by the first length bits of the id.", "quantifier": "all histories, widths 16/32 (and 64)", "why_tests_cant": "radix tree shapes are unbounded", "anchors": ["pkg/tree/tree.go:add", "pkg/tree/tree.go:DeleteWithBuffer", "pkg/tree/tree.go:deleteNode"]}
{"id": "C43", "title": "No internal panic is reachable", "statement": "No history of Set/Delete/Iterate with lengths <= width reaches one of the tree's panic statements or an index out of range.", "quantifier": "all histories", "why_tests_cant": "panic freedom over all histories", "anchors": ["pkg/tree/tree.go:add", "pkg/tree/tree.go:Next", "pkg/tree/node.go:MergeFromNodes"]}
{"id": "C44", "title": "Iteration visits every stored prefix once, in order", "statement": "An iteration over an unmodified tree terminates and visits each stored prefix exactly once, ancestors before descendants and lower ids before higher.", "quantifier": "all reachable trees", "why_tests_cant": "all shapes", "anchors": ["pkg/tree/tree.go:Next", "pkg/tree/tree.go:Iterate"]}
{"id": "C45", "title": "The tree stays path compressed and leaks no node", "statement": "In every reachable tree each valueless non-root node has two children, and every allocated node slot is either reachable from the root exactly once or on the free list exactly once.", "quantifier": "all histories", "why_tests_cant": "shape invariant", "anchors": ["pkg/tree/tree.go:deleteNode", "pkg/tree/tree_manual.go:newNode"]}
{"id": "C46", "title": "Node pointers are never invalidated", "statement": "While add runs, no append reallocates the node array, so pointers taken into it stay valid, in every reachable state.", "quantifier": "all histories", "why_tests_cant": "depends on capacity and free list history", "anchors": ["pkg/tree/tree.go:add", "pkg/tree/tree_manual.go:newNode"]}
{"id": "C47", "title": "Delete removes exactly the matching value", "statement": "Delete(id,match,v) removes the values stored under id that match v, returns how many, keeps all others and every other prefix.", "quantifier": "all reachable trees, ids, match functions", "why_tests_cant": "all shapes", "anchors": ["pkg/tree/tree.go:Delete", "pkg/tree/tree.go:deleteVal"]}
{"id": "C48", "title": "Set reports whether the prefix was new", "statement": "Set returns true iff nothing was stored under the prefix before, and then and otherwise the value count under the prefix is 1.", "quantifier": "all reachable trees and ids", "why_tests_cant": "all shapes", "anchors": ["pkg/tree/tree.go:Set", "pkg/tree/tree.go:addVal"]}
{"id": "C49", "title": "Clone is an independent equal copy", "statement": "Clone() has the same contents as the original, and later operations on either do not affect the other.", "quantifier": "all reachable trees", "why_tests_cant": "all histories", "anchors": ["pkg/tree/tree.go:Clone"]}
{"id": "C50", "title": "Values of different prefixes do not interfere", "statement": "Storing a value under one prefix never changes the value read under another, for all three widths.", "quantifier": "all reachable trees, widths 16/32/64", "why_tests_cant": "depends on width and node index", "anchors": ["pkg/tree/tree.go:addVal", "pkg/tree/tree.go:valsForNode"]}
{"id": "C51", "title": "MergeID inverts ShiftLeft", "statement": "Splitting a prefix at a bit and merging the parts gives back the same bits and length.", "quantifier": "all ids and lengths, widths 16/32/64", "why_tests_cant": "all ids", "anchors": ["pkg/tree/tree_manual.go:MergeID16", "pkg/tree/tree_manual.go:MergeID32", "pkg/tree/tree_manual.go:MergeID64", "pkg/tree/tree_manual.go:initBuildLeftMasks", "pkg/tree/node.go:ShiftLength"]}
{"id": "C52", "title": "A claimed id can be read back", "statement": "After ClaimID(id,labels) or Update succeeds, Get(id) returns exactly that id and labels until the same prefix is claimed again or released; ids above the maximum are rejected without effect.", "quantifier": "all histories, ids and labels, widths 16/32/64", "why_tests_cant": "all histories", "anchors": ["pkg/tree/tree16/tree16.go:ClaimID", "pkg/tree/tree32/tree32.go:ClaimID", "pkg/tree/tree64/tree64.go:ClaimID", "pkg/tree/tree16/tree16.go:Get", "pkg/tree/tree32/tree32.go:Get", "pkg/tree/tree64/tree64.go:Get", "pkg/tree/tree16/tree16.go:validate", "pkg/tree/tree32/tree32.go:validate", "pkg/tree/tree64/tree64.go:validate"]}
{"id": "C53", "title": "ReleaseID removes exactly one entry", "statement": "ReleaseID(id) removes the entry claimed under exactly this id and length if there is one, changes nothing else, and is idempotent.", "quantifier": "all histories and ids", "why_tests_cant": "all histories", "anchors": ["pkg/tree/tree16/tree16.go:ReleaseID", "pkg/tree/tree32/tree32.go:ReleaseID", "pkg/tree/tree64/tree64.go:ReleaseID"]}
{"id": "C54", "title": "ReleaseByLabel removes exactly the matching entries", "statement": "After ReleaseByLabel(sel), GetAll returns the previous entries that do not match sel, in the same order.", "quantifier": "all reachable trees and selectors", "why_tests_cant": "all states and selectors", "anchors": ["pkg/tree/tree16/tree16.go:ReleaseByLabel", "pkg/tree/tree32/tree32.go:ReleaseByLabel", "pkg/tree/tree64/tree64.go:ReleaseByLabel"]}
{"id": "C55", "title": "Children are the strict descendants", "statement": "Children(id) returns exactly the entries whose prefix is a proper extension of id's.", "quantifier": "all reachable trees and ids", "why_tests_cant": "all states", "anchors": ["pkg/tree/tree16/tree16.go:Children", "pkg/tree/tree32/tree32.go:Children", "pkg/tree/tree64/tree64.go:Children"]}
{"id": "C56", "title": "Parents are the strict ancestors", "statement": "Parents(id) returns exactly the entries whose prefix properly contains id's.", "quantifier": "all reachable trees and ids", "why_tests_cant": "all states", "anchors": ["pkg/tree/tree16/tree16.go:Parents", "pkg/tree/tree32/tree32.go:Parents", "pkg/tree/tree64/tree64.go:Parents"]}
{"id": "C57", "title": "ClaimFree returns a free id inside the tree's size", "statement": "ClaimFree returns an id <= 2^length-1 that no claimed prefix covers, claims it, and fails iff every id is covered.", "quantifier": "all reachable trees, widths 16/32/64", "why_tests_cant": "all fill patterns, all lengths", "anchors": ["pkg/tree/tree16/tree16.go:ClaimFree", "pkg/tree/tree32/tree32.go:ClaimFree", "pkg/tree/tree64/tree64.go:ClaimFree", "pkg/tree/tree16/tree16.go:findFree", "pkg/tree/tree32/tree32.go:findFree", "pkg/tree/tree64/tree64.go:findFree"]}
{"id": "C58", "title": "ClaimRange claims exactly the ids of the range", "statement": "ClaimRange(\"a-b\") with a <= b makes the entries for the prefixes of a..b, covering exactly a..b, and rejects ranges outside the tree or with b < a.", "quantifier": "all strings and reachable trees", "why_tests_cant": "all ranges", "anchors": ["pkg/tree/tree16/tree16.go:ClaimRange", "pkg/tree/tree32/tree32.go:ClaimRange", "pkg/tree/tree64/tree64.go:ClaimRange"]}
{"id": "C59", "title": "Size, GetAll, GetByLabel agree", "statement": "Size() = len(GetAll()) = number of claimed prefixes, and GetByLabel(sel) is the filter of GetAll.", "quantifier": "all reachable trees and selectors", "why_tests_cant": "all states", "anchors": ["pkg/tree/tree16/tree16.go:Size", "pkg/tree/tree32/tree32.go:Size", "pkg/tree/tree64/tree64.go:Size", "pkg/tree/tree16/tree16.go:GetAll", "pkg/tree/tree32/tree32.go:GetAll", "pkg/tree/tree64/tree64.go:GetAll", "pkg/tree/tree16/tree16.go:GetByLabel", "pkg/tree/tree32/tree32.go:GetByLabel", "pkg/tree/tree64/tree64.go:GetByLabel"]}
{"id": "C60", "title": "New enforces the length bound", "statement": "New(name,length) fails iff length exceeds the width; otherwise the tree is empty and accepts exactly the ids 0..2^length-1.", "quantifier": "all lengths 0..255, all ids", "why_tests_cant": "includes the shift overflow at full width", "anchors": ["pkg/tree/tree16/tree16.go:New", "pkg/tree/tree32/tree32.go:New", "pkg/tree/tree64/tree64.go:New", "pkg/tree/tree16/tree16.go:validate", "pkg/tree/tree32/tree32.go:validate", "pkg/tree/tree64/tree64.go:validate"]}
{"id": "C61", "title": "Claims are exclusive under concurrency", "statement": "In every interleaving of any number of goroutines, between two successful claims of the same id on an index table, ranged table or IP table there is a release of it.", "quantifier": "all schedules, any number of threads", "why_tests_cant": "schedules cannot be enumerated by tests", "anchors": ["pkg/idxtable/table.go:Claim", "pkg/table/table16/table16.go:Claim", "pkg/table/table16/table16.go:ClaimFree", "pkg/iptable/iptable.go:Claim"]}
{"id": "C62", "title": "Locking never deadlocks", "statement": "In every schedule some unfinished call on an index table can make a step.", "quantifier": "all schedules, any number of threads", "why_tests_cant": "needs a writer arriving between two RLocks", "anchors": ["pkg/idxtable/table.go:GetAll", "pkg/idxtable/table.go:Iterate", "pkg/tree/tree32/tree32.go:Get", "pkg/tree/tree32/tree32.go:Iterate"]}
{"id": "C63", "title": "Concurrent ClaimFree on a tree returns different ids", "statement": "Two goroutines calling ClaimFree on the same tree never get the same id.", "quantifier": "all schedules", "why_tests_cant": "race window between findFree and set", "anchors": ["pkg/tree/tree16/tree16.go:ClaimFree", "pkg/tree/tree32/tree32.go:ClaimFree", "pkg/tree/tree64/tree64.go:ClaimFree"]}
{"id": "C64", "title": "Index table calls are linearizable", "statement": "Every concurrent history of index table calls has the results of some sequential order of the calls, consistent with real time.", "quantifier": "all schedules, any number of threads", "why_tests_cant": "all interleavings", "anchors": ["pkg/idxtable/table.go:table"]}
{"id": "C65", "title": "An IP table of an IPv6 /64 subnet can allocate", "statement": "On a table over exactly 2^64 IPv6 addresses FindFree returns the lowest free address while one is free.", "quantifier": "every such range, every reachable state", "why_tests_cant": "the number of addresses wraps to 0 in 64 bits only for this size", "anchors": ["pkg/iptable/iptable.go:numIPs", "pkg/iptable/iptable.go:FindFree"]}
{"id": "C66", "title": "Too long prefixes are reported by the set builder", "statement": "AddId and RemoveId with a prefix length above the width leave the set unchanged and are reported as an error by the next IPSet, like other invalid arguments.", "quantifier": "all builder states, all ids with length > width, widths 16/32/64", "why_tests_cant": "needs a malformed id", "anchors": ["pkg/tree/id32/idset.go:AddId", "pkg/tree/id32/idset.go:RemoveId"]}
{"id": "C67", "title": "RemoveFreePrefix with a too large length fails cleanly", "statement": "RemoveFreePrefix(l) with l above the width returns ok = false.", "quantifier": "all sets, all l > width", "why_tests_cant": "needs an out of range length", "anchors": ["pkg/tree/id32/idset.go:RemoveFreePrefix"]}
{"id": "C68", "title": "Too long prefixes do not corrupt the tree", "statement": "Set and Delete with a prefix length above the width are rejected, or at least consistent: a prefix that was set is found by the next Set and removed by the next Delete.", "quantifier": "all ids with length > width", "why_tests_cant": "needs a malformed id", "anchors": ["pkg/tree/tree.go:Set", "pkg/tree/tree.go:Delete"]}
{"id": "C69", "title": "The value map leaks nothing", "statement": "The map of values has exactly one entry per stored value; it is empty once everything is deleted.", "quantifier": "all histories of Set, Add and Delete, widths 16/32/64", "why_tests_cant": "node indices are moved and reused by deletions; a leak has no visible effect", "anchors": ["pkg/tree/tree.go:deleteVal", "pkg/tree/tree.go:moveTags", "pkg/tree/tree.go:addVal"]}
{"id": "C70", "title": "No call on a tree table panics", "statement": "No sequence of calls New, ClaimID, Update, ClaimFree, ClaimRange, ReleaseID, ReleaseByLabel panics or fails to terminate, for ids whose length is at most the width.", "quantifier": "all histories, all arguments, widths 16/32/64", "why_tests_cant": "all histories; depends on the number of entries", "anchors": ["pkg/tree/tree16/tree16.go:ClaimID", "pkg/tree/tree32/tree32.go:ClaimID", "pkg/tree/tree64/tree64.go:ClaimID", "pkg/tree/tree16/tree16.go:ClaimFree", "pkg/tree/tree32/tree32.go:ClaimFree", "pkg/tree/tree64/tree64.go:ClaimFree", "pkg/tree/tree16/tree16.go:ClaimRange", "pkg/tree/tree32/tree32.go:ClaimRange", "pkg/tree/tree64/tree64.go:ClaimRange", "pkg/tree/tree16/tree16.go:ReleaseID", "pkg/tree/tree32/tree32.go:ReleaseID", "pkg/tree/tree64/tree64.go:ReleaseID", "pkg/tree/tree16/tree16.go:ReleaseByLabel", "pkg/tree/tree32/tree32.go:ReleaseByLabel", "pkg/tree/tree64/tree64.go:ReleaseByLabel"]}
{"id": "C71", "title": "A clone of a tree table is usable", "statement": "Clone() has the same entries as the original, and accepts further calls like it.", "quantifier": "all reachable tables", "why_tests_cant": "all histories", "anchors": ["pkg/tree/tree16/tree16.go:Clone", "pkg/tree/tree32/tree32.go:Clone", "pkg/tree/tree64/tree64.go:Clone"]}
{"id": "C72", "title": "Add appends unless there is a duplicate", "statement": "Add(id,v,match) appends v to the values of the prefix unless one of them matches v, changes the values of the prefix in no other way, and returns whether it was added and the number of values of the prefix afterwards.", "quantifier": "all histories of Set, Add and Delete, all match functions, widths 16/32/64, fewer than 2^64 values under a prefix", "why_tests_cant": "all histories and match functions", "anchors": ["pkg/tree/tree.go:Add", "pkg/tree/tree.go:add", "pkg/tree/tree.go:addVal"]}
{"id": "C73", "title": "The index table has no data race", "statement": "In no schedule does a goroutine write to the map of an index table while another one reads or writes it.", "quantifier": "all schedules, any number of threads, all sizes", "why_tests_cant": "the race detector only sees the schedules that happen", "anchors": ["pkg/idxtable/table.go:table"]}
{"id": "C74", "title": "The ranged tables and the IP table have no data race", "statement": "In no schedule does a goroutine write to the map below a ranged table or an IP table while another one reads or writes it.", "quantifier": "all schedules, any number of threads", "why_tests_cant": "the race detector only sees the schedules that happen", "anchors": ["pkg/table/table16/table16.go:GetByLabel", "pkg/iptable/iptable.go:GetByLabel", "pkg/idxtable/iterator.go:Value"]}
{"id": "C75", "title": "GetByLabel does not panic when entries are released meanwhile", "statement": "In no schedule does GetByLabel on a ranged table or an IP table panic.", "quantifier": "all schedules, any number of threads", "why_tests_cant": "needs a release between the listing of the ids and the reading of the entries", "anchors": ["pkg/table/table16/table16.go:GetByLabel", "pkg/iptable/iptable.go:GetByLabel", "pkg/idxtable/iterator.go:Value"]}
{"id": "C76", "title": "ClaimFree succeeds while ids are free", "statement": "ClaimFree on a ranged table fails only if at some moment of the call no id is free.", "quantifier": "all schedules, any number of threads", "why_tests_cant": "needs a claim between the search and the claim of ClaimFree", "anchors": ["pkg/table/table16/table16.go:ClaimFree", "pkg/table/table16/table16.go:FindFree", "pkg/table/table16/table16.go:Claim"]}
{"id": "C77", "title": "The trees have no data race", "statement": "In no schedule does a goroutine write to a tree of claimed prefixes while another one reads or writes it.", "quantifier": "all schedules, any number of threads, widths 16/32/64", "why_tests_cant": "the race detector only sees the schedules that happen", "anchors": ["pkg/tree/tree16/tree16.go:GetAll", "pkg/tree/tree32/tree32.go:GetAll", "pkg/tree/tree64/tree64.go:GetAll", "pkg/tree/tree16/tree16.go:GetByLabel", "pkg/tree/tree32/tree32.go:GetByLabel", "pkg/tree/tree64/tree64.go:GetByLabel", "pkg/tree/tree16/tree16.go:Size", "pkg/tree/tree32/tree32.go:Size", "pkg/tree/tree64/tree64.go:Size", "pkg/tree/tree16/tree16.go:Clone", "pkg/tree/tree32/tree32.go:Clone", "pkg/tree/tree64/tree64.go:Clone", "pkg/tree/tree16/tree16.go:ClaimRange", "pkg/tree/tree32/tree32.go:ClaimRange", "pkg/tree/tree64/tree64.go:ClaimRange"]}
{"id": "C78", "title": "Locking of the trees never deadlocks", "statement": "In every schedule some unfinished call on a tree of claimed prefixes can make a step.", "quantifier": "all schedules, any number of threads, widths 16/32/64", "why_tests_cant": "needs a writer that arrives between two nested read locks", "anchors": ["pkg/tree/tree16/tree16.go:Get", "pkg/tree/tree32/tree32.go:Get", "pkg/tree/tree64/tree64.go:Get", "pkg/tree/tree16/tree16.go:Children", "pkg/tree/tree32/tree32.go:Children", "pkg/tree/tree64/tree64.go:Children", "pkg/tree/tree16/tree16.go:Parents", "pkg/tree/tree32/tree32.go:Parents", "pkg/tree/tree64/tree64.go:Parents", "pkg/tree/tree16/tree16.go:Iterate", "pkg/tree/tree32/tree32.go:Iterate", "pkg/tree/tree64/tree64.go:Iterate"]}
{"id": "C79", "title": "Ranged table and IP table calls are linearizable", "statement": "Every concurrent history of calls of a ranged table or an IP table has the results of some sequential order of the calls, consistent with real time.", "quantifier": "all schedules, any number of threads, all non-full ranges", "why_tests_cant": "all interleavings; Claim, Update, ClaimFree and GetByLabel are several critical sections", "anchors": ["pkg/table/table16/table16.go:Claim", "pkg/table/table16/table16.go:ClaimFree", "pkg/table/table16/table16.go:GetByLabel", "pkg/iptable/iptable.go:Claim", "pkg/iptable/iptable.go:Update", "pkg/iptable/iptable.go:GetByLabel"]}
{"id": "C80", "title": "Listing a tree while it is changed is safe", "statement": "GetAll, GetByLabel, ReleaseByLabel and Size on a tree of claimed prefixes do not panic in any schedule, and GetAll lists every prefix that is claimed during the whole call.", "quantifier": "all schedules, any number of threads, widths 16/32/64", "why_tests_cant": "needs a release or a claim between two rounds of the unlocked loop", "anchors": ["pkg/tree/tree16/tree16.go:GetAll", "pkg/tree/tree32/tree32.go:GetAll", "pkg/tree/tree64/tree64.go:GetAll", "pkg/tree/tree16/tree16.go:GetByLabel", "pkg/tree/tree32/tree32.go:GetByLabel", "pkg/tree/tree64/tree64.go:GetByLabel", "pkg/tree/tree16/tree16.go:ReleaseByLabel", "pkg/tree/tree32/tree32.go:ReleaseByLabel", "pkg/tree/tree64/tree64.go:ReleaseByLabel", "pkg/tree/tree16/tree16.go:Size", "pkg/tree/tree32/tree32.go:Size", "pkg/tree/tree64/tree64.go:Size", "pkg/tree/tree.go:Next"]}
{"id": "C81", "title": "Tree calls are linearizable", "statement": "Every concurrent history of calls of a tree of claimed prefixes has the results of some sequential order of the calls, consistent with real time.", "quantifier": "all schedules, any number of threads, widths 16/32/64", "why_tests_cant": "all interleavings; ClaimFree, ReleaseID, ReleaseByLabel and GetAll are several critical sections", "anchors": ["pkg/tree/tree16/tree16.go:ClaimFree", "pkg/tree/tree32/tree32.go:ClaimFree", "pkg/tree/tree64/tree64.go:ClaimFree", "pkg/tree/tree16/tree16.go:ReleaseID", "pkg/tree/tree32/tree32.go:ReleaseID", "pkg/tree/tree64/tree64.go:ReleaseID", "pkg/tree/tree16/tree16.go:ReleaseByLabel", "pkg/tree/tree32/tree32.go:ReleaseByLabel", "pkg/tree/tree64/tree64.go:ReleaseByLabel", "pkg/tree/tree16/tree16.go:GetAll", "pkg/tree/tree32/tree32.go:GetAll", "pkg/tree/tree64/tree64.go:GetAll"]}
{"id": "C82", "title": "Claims on a tree are exclusive", "statement": "ClaimID of a prefix that is already claimed, Update of a prefix that is not claimed, and ClaimRange over claimed prefixes fail without effect.", "quantifier": "all reachable trees and ids", "why_tests_cant": "all states; the methods call the same set", "anchors": ["pkg/tree/tree16/tree16.go:ClaimID", "pkg/tree/tree32/tree32.go:ClaimID", "pkg/tree/tree64/tree64.go:ClaimID", "pkg/tree/tree16/tree16.go:Update", "pkg/tree/tree32/tree32.go:Update", "pkg/tree/tree64/tree64.go:Update", "pkg/tree/tree16/tree16.go:ClaimRange", "pkg/tree/tree32/tree32.go:ClaimRange", "pkg/tree/tree64/tree64.go:ClaimRange"]}
{"id": "C83", "title": "ClaimFree on a tree returns the lowest free id", "statement": "ClaimFree on a tree returns the lowest id that no claimed prefix covers; on a new tree n calls return 0..n-1.", "quantifier": "all reachable trees, widths 16/32", "why_tests_cant": "all fill patterns", "anchors": ["pkg/tree/tree16/tree16.go:ClaimFree", "pkg/tree/tree32/tree32.go:ClaimFree", "pkg/tree/tree64/tree64.go:ClaimFree", "pkg/tree/tree16/tree16.go:findFree", "pkg/tree/tree32/tree32.go:findFree", "pkg/tree/tree64/tree64.go:findFree"]}
{"id": "C84", "title": "Tables and trees keep their own copy of the labels", "statement": "After a successful Claim, ClaimID or Update the reported labels do not change when the caller later changes the label map it has passed.", "quantifier": "all reachable trees and tables, all later programs of calls and changes of label maps", "why_tests_cant": "all histories; needs a caller that reuses its map", "anchors": ["pkg/tree/tree16/tree16.go:ClaimID", "pkg/tree/tree32/tree32.go:ClaimID", "pkg/tree/tree64/tree64.go:ClaimID", "pkg/tree/tree16/tree16.go:Update", "pkg/tree/tree32/tree32.go:Update", "pkg/tree/tree64/tree64.go:Update", "pkg/table/table16/table16.go:Claim", "pkg/table/table16/table16.go:Update", "pkg/iptable/iptable.go:Claim", "pkg/iptable/iptable.go:Update"]}
{"id": "C85", "title": "Iterating a tree while changing it", "statement": "A client that goes through a tree with the iterator of Iterate and updates, releases or claims entries in the loop does not panic, and visits every prefix that is claimed during the whole loop exactly once.", "quantifier": "all reachable trees, all loop bodies", "why_tests_cant": "all shapes of the tree and all loop bodies", "anchors": ["pkg/tree/tree16/tree16.go:Iterate", "pkg/tree/tree32/tree32.go:Iterate", "pkg/tree/tree64/tree64.go:Iterate", "pkg/tree/tree.go:Next", "pkg/tree/gtree/gtree.go:Entry"]}
{"id": "C86", "title": "String identifies an id", "statement": "Ids of one package with the same String() are equal.", "quantifier": "all ids and lengths, widths 16/32/64", "why_tests_cant": "all ids", "anchors": ["pkg/tree/id16/id16.go:String", "pkg/tree/id32/id32.go:String", "pkg/tree/id64/id64.go:String"]}
{"id": "C87", "title": "Keeping a few tree calls apart makes a tree linearizable", "statement": "If the clients let ClaimRange run alone, and never run Clone, GetAll, GetByLabel, Size, ReleaseByLabel or ClaimFree at the same time as another call that changes the tree, then every concurrent history of calls of a tree of claimed prefixes is linearizable, including the choice of ClaimFree; calls that break the second rule do not affect the replies of the others.", "quantifier": "all schedules, any number of threads, ids of length at most the width, tree16 of length at least 1, tree32 of length less than 32 if ClaimRange names only ids below 2^31, or with at most 2^31 claims", "why_tests_cant": "all interleavings; says which external locking is enough", "anchors": ["pkg/tree/tree16/tree16.go:ClaimRange", "pkg/tree/tree32/tree32.go:ClaimRange", "pkg/tree/tree64/tree64.go:ClaimRange", "pkg/tree/tree16/tree16.go:ClaimFree", "pkg/tree/tree32/tree32.go:ClaimFree", "pkg/tree/tree64/tree64.go:ClaimFree", "pkg/tree/tree16/tree16.go:ReleaseByLabel", "pkg/tree/tree32/tree32.go:ReleaseByLabel", "pkg/tree/tree64/tree64.go:ReleaseByLabel", "pkg/tree/tree16/tree16.go:GetAll", "pkg/tree/tree32/tree32.go:GetAll", "pkg/tree/tree64/tree64.go:GetAll", "pkg/tree/tree16/tree16.go:Clone", "pkg/tree/tree32/tree32.go:Clone", "pkg/tree/tree64/tree64.go:Clone"]}
{"id": "C88", "title": "The tests of the repository pass", "statement": "Every case of every test in the repository passes, in whatever order Go goes through the maps of the test case.", "quantifier": "all orders of all maps", "why_tests_cant": "a run of the tests takes one order of each map; checks that the model agrees with the tests", "anchors": ["pkg/idxtable/table_test.go", "pkg/table/table16/table16_test.go", "pkg/table/table32/table32_test.go", "pkg/table/table64/table64_test.go", "pkg/iptable/tptable_test.go", "pkg/tree/tree16/tree16_test.go", "pkg/tree/tree32/tree32_test.go", "pkg/tree/tree64/tree64_test.go"]}
{"id": "C89", "title": "The demo program runs to the end", "statement": "test/main.go does not panic; it claims 0 to 4095 by name and then by ClaimFree, in this order, from a tree16 and a tree32 of length 12, and, with 1000 to 2000 claimed, finds neither 1000 nor 100, and as parents 1000/13 and nothing.", "quantifier": "all labels and selectors", "why_tests_cant": "states the whole output", "anchors": ["test/main.go:main", "test/main.go:handleId"]}
{"id": "C90", "title": "What IDs and ClaimRange do with inverted ranges", "statement": "IDs() of a range whose ends are in the wrong order lists, without overlap and in this order, prefixes that cover exactly the ids from its from to the last id of the smallest aligned block that has both ends, and those from the first id of this block to its to; ClaimRange of such a text claims these prefixes.", "quantifier": "all ranges with to < from, widths 16/32/64, all reachable trees", "why_tests_cant": "all pairs of ends; the code makes no check, and the documentation says nothing", "anchors": ["pkg/tree/id32/range32.go:IDs", "pkg/tree/id32/range32.go:appendRangeIDs", "pkg/tree/tree16/tree16.go:ClaimRange", "pkg/tree/tree32/tree32.go:ClaimRange", "pkg/tree/tree64/tree64.go:ClaimRange"]}
{"id": "C91", "title": "Exactly which id ClaimFree on a tree returns", "statement": "In every reachable tree ClaimFree looks at the ids of its root block that no entry strictly below the root covers; of the largest aligned blocks of such ids it takes a smallest one, of these the first, and claims its first id if this is inside the tree; otherwise it fails. The call never panics.", "quantifier": "all reachable trees, widths 16/32/64", "why_tests_cant": "all fill patterns, including those where ClaimFree goes wrong", "anchors": ["pkg/tree/tree16/tree16.go:ClaimFree", "pkg/tree/tree32/tree32.go:ClaimFree", "pkg/tree/tree64/tree64.go:ClaimFree", "pkg/tree/tree16/tree16.go:findFree", "pkg/tree/tree32/tree32.go:findFree", "pkg/tree/tree64/tree64.go:findFree"]}
{"id": "C92", "title": "Calls on a tree64 about different ids are independent", "statement": "On a tree64, ClaimID, Update and ReleaseID of an id do not change what Get returns for any other id, and ClaimFree can return an id.", "quantifier": "all reachable trees of width 64", "why_tests_cant": "all histories", "anchors": ["pkg/tree/tree64/tree64.go:ClaimID", "pkg/tree/tree64/tree64.go:Update", "pkg/tree/tree64/tree64.go:ReleaseID", "pkg/tree/tree64/tree64.go:Get", "pkg/tree/tree64/tree64.go:ClaimFree"]}
{"id": "C93", "title": "Every call returns", "statement": "If from some moment on no further calls are started, all calls in progress return, however the scheduler runs them: it cannot go on for ever, and when no call can make a step none is in progress.", "quantifier": "all schedules, any number of threads, index, ranged and IP tables, trees of claimed prefixes", "why_tests_cant": "all interleavings; a test cannot see that something never happens", "anchors": ["pkg/idxtable/table.go:table", "pkg/table/table16/table16.go:GetAll", "pkg/iptable/iptable.go:GetAll", "pkg/tree/tree16/tree16.go:Get", "pkg/tree/tree32/tree32.go:Get", "pkg/tree/tree64/tree64.go:Get"]}
{"id": "C94", "title": "What GetByLabel returns while a table is changed", "statement": "GetByLabel on a ranged table or an IP table, if it returns, lists in ascending order only entries whose labels are selected and which are in the table at some moment during the call, and lists every id that is in the table with the same selected labels during the whole call.", "quantifier": "all schedules, any number of threads, all selectors, all ranges of fewer than 2^64 ids", "why_tests_cant": "needs updates between the listing of the ids and the reading of the entries", "anchors": ["pkg/table/table16/table16.go:GetByLabel", "pkg/iptable/iptable.go:GetByLabel", "pkg/idxtable/iterator.go:Value"]}
{"id": "C95", "title": "The ids in the entries of a ranged table have the width of the table", "statement": "Every entry that Get, ClaimFree, GetAll or GetByLabel of table16, table32 or table64 returns has an id of length 16, 32 or 64.", "quantifier": "all reachable tables", "why_tests_cant": "the tests compare numbers and labels only", "anchors": ["pkg/table/table16/table16.go:GetAll", "pkg/table/table16/table16.go:GetByLabel", "pkg/table/table16/table16.go:ClaimFree", "pkg/table/table32/table32.go:GetAll", "pkg/table/table64/table64.go:GetAll"]}
{"id": "C96", "title": "Replies depend on what is claimed, not on how it came about", "statement": "Two tables with the same parameters, or two trees of the same length, that were reached by any two histories of calls and whose Get replies are the same for all ids, give the same replies to all further sequences of calls.", "quantifier": "all pairs of histories, all sizes and ranges, index table, ranged tables, IP table, trees of claimed prefixes", "why_tests_cant": "relates pairs of histories of any length; the order of the underlying map and the layout of the tree must not show", "anchors": ["pkg/idxtable/table.go:table", "pkg/table/table16/table16.go:table16", "pkg/iptable/iptable.go:ipTable", "pkg/tree/tree16/tree16.go:ClaimFree", "pkg/tree/tree32/tree32.go:ClaimFree", "pkg/tree/tree64/tree64.go:ClaimFree", "pkg/tree/tree16/tree16.go:GetAll", "pkg/tree/tree32/tree32.go:GetAll", "pkg/tree/tree64/tree64.go:GetAll"]}
{"id": "C97", "title": "Calls about different ids commute, and a release undoes a claim", "statement": "Calls that name two different ids (addresses, prefixes) have the same replies in either order, and no later call tells in which order they were made. A successful claim followed by the release of the same id leaves a table or tree that no later call tells from the one before.", "quantifier": "all states, all pairs of calls that name an id, index table, ranged tables, IP table, trees of claimed prefixes", "why_tests_cant": "all states and all later calls", "anchors": ["pkg/idxtable/table.go:table", "pkg/table/table16/table16.go:Claim", "pkg/table/table16/table16.go:Release", "pkg/iptable/iptable.go:Claim", "pkg/iptable/iptable.go:Release", "pkg/tree/tree16/tree16.go:ClaimID", "pkg/tree/tree32/tree32.go:ClaimID", "pkg/tree/tree64/tree64.go:ClaimID", "pkg/tree/tree16/tree16.go:ReleaseID", "pkg/tree/tree32/tree32.go:ReleaseID", "pkg/tree/tree64/tree64.go:ReleaseID"]}
{"id": "C98", "title": "Equal of two entries holds exactly if they are equal", "statement": "Equal of two entries of a tree holds exactly if they have the same id, the same length and the same labels.", "quantifier": "all ids, all label sets", "why_tests_cant": "all label sets; the code compares the labels through their String", "anchors": ["pkg/tree/entry.go:Equal"]}
{"id": "C99", "title": "A prefix with several values behaves as a list", "statement": "A tree is a map from prefixes to lists of values: Set replaces the first value of the list or starts one, Add appends unless a value matches, Delete removes the values that match (and of the others those that match an earlier one); the results say whether the list grew, its length, and how many values were removed; iteration yields the lists that are not empty, in the order of the prefixes.", "quantifier": "all histories of Set, Add and Delete with any match functions, widths 16/32/64", "why_tests_cant": "all histories; nothing in the repository stores several values", "anchors": ["pkg/tree/tree.go:Set", "pkg/tree/tree.go:Add", "pkg/tree/tree.go:Delete", "pkg/tree/tree.go:addVal", "pkg/tree/tree.go:deleteVal", "pkg/tree/tree.go:Next"]}
{"id": "C100", "title": "Buffers only save allocations", "statement": "DeleteWithBuffer does and returns what Delete does, and ValsWithBuffer returns its buffer followed by what Vals returns, whatever the length, capacity and contents of the buffer. DeleteWithBuffer overwrites the start of the buffer's array with the values stored under the prefix, as far as they fit; ValsWithBuffer writes only beyond the buffer's length.", "quantifier": "all trees, prefixes, match functions, iterators, buffers", "why_tests_cant": "all lengths and capacities; no call in the repository passes a buffer", "anchors": ["pkg/tree/tree.go:DeleteWithBuffer", "pkg/tree/tree.go:ValsWithBuffer", "pkg/tree/tree.go:deleteVal", "pkg/tree/tree.go:valsForNode"]}
{"id": "C101", "title": "A tree needs memory in proportion to the most prefixes it ever stored", "statement": "A tree that never stored more than N prefixes has at most 2N+2 nodes in an array of capacity at most 4N+24; no call makes the array shorter or smaller, and Delete keeps both.", "quantifier": "all histories of Set, Add and Delete, all N, widths 16/32/64", "why_tests_cant": "all histories of any length; a test does not see the capacity", "anchors": ["pkg/tree/tree.go:Set", "pkg/tree/tree.go:Delete", "pkg/tree/tree_manual.go:newNode", "pkg/tree/tree.go:deleteNode"]}
{"id": "C102", "title": "A tree works with ids of any of the id packages", "statement": "Set, Add, Delete and iteration of a tree do not panic and find what was stored, whichever package the ids they are called with come from (tree.ID is an interface).", "quantifier": "all trees, all ids of id16, id32 and id64", "why_tests_cant": "mixed widths; the types allow what the code does not expect", "anchors": ["pkg/tree/tree.go:Set", "pkg/tree/tree.go:Add", "pkg/tree/tree.go:Delete", "pkg/tree/tree.go:NewTree"]}
{"id": "C103", "title": "A set has minimal ranges however the ids were obtained", "statement": "For every sequence of AddRange, RemoveRange and IPSet, with ranges whose ends were made by NewID, Next, IDs or any other method, the set returned has the ids added and not removed, as a sorted list of disjoint ranges that do not touch.", "quantifier": "all sequences of calls, all ranges, every result of sort.Slice on ranges that compare equal, widths 16/32/64", "why_tests_cant": "IDs returns pointers and the other methods values; only a merge of touching ranges shows the difference", "anchors": ["pkg/tree/id32/range32.go:mergeRanges", "pkg/tree/id32/range32.go:makeID", "pkg/tree/id32/idset.go:normalize"]}
{"id": "C104", "title": "String and Equal of entries agree", "statement": "Two entries of a tree have the same String() exactly if Equal holds for them; if no label has a comma or an equals sign, exactly if their ids, lengths and labels are the same.", "quantifier": "all ids, all label sets", "why_tests_cant": "all pairs of entries", "anchors": ["pkg/tree/entry.go:String", "pkg/tree/entry.go:Equal"]}
{"id": "C105", "title": "Iterators of the index table can be used in any order", "statement": "Next, ID, Value and IsConsecutive of an iterator of the index table can be called in any order, mixed with calls on the table; they do not panic, and answer for the entry the iterator is at.", "quantifier": "all tables, all sequences of fewer than 2^64 calls on an iterator and its table", "why_tests_cant": "all orders of calls; the code only has loops that call Next first", "anchors": ["pkg/idxtable/iterator.go:Next", "pkg/idxtable/iterator.go:ID", "pkg/idxtable/iterator.go:Value", "pkg/idxtable/iterator.go:IsConsecutive"]}
{"id": "C106", "title": "Iterators of the index table while other goroutines change the table", "statement": "Goroutines that use iterators of an index table while other goroutines call the table have no data race and no deadlock; every iterator goes through the ids that were claimed (or free) at one moment during its goroutine, Value is the entry at a moment after that and not nil, and all calls on the table have one order, consistent with real time and with each goroutine, in which they have their replies.", "quantifier": "all schedules, any number of goroutines, all sequences of fewer than 2^64 calls on each iterator and the table", "why_tests_cant": "all interleavings; Value reads the map without the lock", "anchors": ["pkg/idxtable/iterator.go:Next", "pkg/idxtable/iterator.go:ID", "pkg/idxtable/iterator.go:Value", "pkg/idxtable/iterator.go:IsConsecutive", "pkg/idxtable/table.go:Iterate", "pkg/idxtable/table.go:IterateFree"]}
{"id": "C107", "title": "Next of a tree iterator ends", "statement": "Next of an iterator of a tree returns, however the tree was changed since the iterator was made, even if the nodes on its way were freed and used again; a loop over the iterator ends if the tree is changed only finitely often, and the number of rounds that remain without changes is bounded by a function of the length of the iterator's history and the number of nodes.", "quantifier": "all histories of Set, Add and Delete, all interleavings with the rounds of the iterator, widths 16/32/64", "why_tests_cant": "freed nodes keep their links, so an iterator may walk through garbage; a cycle would show only after the right deletions", "anchors": ["pkg/tree/tree.go:Next", "pkg/tree/tree.go:deleteNode", "pkg/tree/tree.go:Iterate"]}
{"id": "C108", "title": "A loop over a tree ends while others go on changing it", "statement": "A loop over an iterator of a tree with finitely many prefixes ends, whatever other goroutines go on doing with the tree.", "quantifier": "all infinite sequences of rounds and changes, widths 16/32/64", "why_tests_cant": "infinite executions", "anchors": ["pkg/tree/tree.go:Next", "pkg/tree/tree.go:deleteNode", "pkg/tree/tree_manual.go:newNode"]}
{"id": "C109", "title": "What an error text says is true", "statement": "A call that fails returns an error whose text is a sentence (for example that an id is above the limit, is claimed, was not found, or that nothing is free) that is true of the table or tree at that moment.", "quantifier": "all reachable tables and trees, all calls and arguments; index table, ranged tables, IP table, trees of claimed prefixes", "why_tests_cant": "all states; tests only look whether there is an error", "anchors": ["pkg/idxtable/table.go:validate", "pkg/idxtable/table.go:findFreeRange", "pkg/idxtable/table.go:findFreeSize", "pkg/idxtable/table.go:add", "pkg/table/table16/table16.go:validateID", "pkg/table/table16/table16.go:Get", "pkg/iptable/iptable.go:validateIP", "pkg/iptable/iptable.go:Get", "pkg/tree/tree16/tree16.go:validate", "pkg/tree/tree32/tree32.go:validate", "pkg/tree/tree64/tree64.go:validate", "pkg/tree/tree16/tree16.go:ClaimFree", "pkg/tree/tree32/tree32.go:ClaimFree", "pkg/tree/tree64/tree64.go:ClaimFree"]}
{"id": "C110", "title": "An error text names what the call was about", "statement": "The text of the error of a call that was given an id or an address contains this id or address.", "quantifier": "all states, all calls and arguments; index table, ranged tables, IP table, trees of claimed prefixes", "why_tests_cant": "all states; tests do not look at texts", "anchors": ["pkg/idxtable/table.go:Get", "pkg/table/table16/table16.go:Get", "pkg/table/table16/table16.go:Update", "pkg/iptable/iptable.go:Get", "pkg/tree/tree16/tree16.go:Get", "pkg/tree/tree32/tree32.go:Get", "pkg/tree/tree64/tree64.go:Get", "pkg/tree/tree16/tree16.go:validate", "pkg/tree/tree32/tree32.go:validate", "pkg/tree/tree64/tree64.go:validate"]}
{"id": "C111", "title": "Error texts of range parsing and of set builders are exact", "statement": "ParseRange fails with a text that says truly what is wrong (no hyphen, first part no id, second part no id); IPSet fails with a text whose lines name exactly the invalid ranges passed since the last IPSet, in order, each with the method that rejected it, and can be read in one way only; IsZero holds of the range of a prefix iff its length exceeds the width.", "quantifier": "all strings, all call histories of a builder, all ids, widths 16/32/64", "why_tests_cant": "all strings and histories; tests do not look at texts", "anchors": ["pkg/tree/id32/range32.go:ParseRange", "pkg/tree/id16/range16.go:ParseRange", "pkg/tree/id64/range64.go:ParseRange", "pkg/tree/id32/idset.go:IPSet", "pkg/tree/id16/idset.go:IPSet", "pkg/tree/id64/idset.go:IPSet", "pkg/tree/id32/range32.go:IsZero", "pkg/tree/id16/range16.go:IsZero", "pkg/tree/id64/range64.go:IsZero"]}
{"id": "C112", "title": "The debugging dumps show the contents of a tree", "statement": "PrintNodes prints one line per node of the tree, in order, with its number, links, bits, length and count, from which the nodes can be read back; the counts add up to the number of values in the tree, a node with values is reached from the root, and only nodes in use are printed. PrintValues prints, in some order, exactly one line per claimed prefix, with the String of its entry.", "quantifier": "all reachable trees, all orders of the value map, widths 16/32/64", "why_tests_cant": "all shapes of the tree; the tests print and do not look", "anchors": ["pkg/tree/tree.go:PrintNodes", "pkg/tree/tree.go:PrintValues", "pkg/tree/tree16/tree16.go:PrintNodes", "pkg/tree/tree32/tree32.go:PrintNodes", "pkg/tree/tree64/tree64.go:PrintNodes", "pkg/tree/tree16/tree16.go:PrintValues", "pkg/tree/tree32/tree32.go:PrintValues", "pkg/tree/tree64/tree64.go:PrintValues"]}
{"id": "C113", "title": "An IP table of an empty range accepts nothing", "statement": "An IP table whose range contains no address (ends in the wrong order, of different families, or the zero address) refuses every call that names an address, has size 0, lists nothing, and its FindFree fails.", "quantifier": "all such ranges, all histories", "why_tests_cant": "all pairs of ends; New makes no check", "anchors": ["pkg/iptable/iptable.go:New", "pkg/iptable/iptable.go:FindFree", "pkg/iptable/iptable.go:numIPs", "pkg/iptable/iptable.go:validateIP"]}
{"id": "C114", "title": "Allocating until it fails hands out every free id once", "statement": "From every reachable state, repeated ClaimDynamic (index table), ClaimFree (ranged table), or FindFree followed by Claim of the address (IP table) returns the free ids in ascending order, each once, and then fails as often as it is called; repeated ClaimFree of a tree returns every id that no claimed prefix covers, each once, and then fails.", "quantifier": "all reachable states; ranged tables of all but the full range, IP tables of fewer than 2^64 addresses and every text format that the parser reads back, tree16 of length 1 or more, tree32 of length up to 16 with ids within the tree, no claimed prefix that contains the root block", "why_tests_cant": "all states and all sequences of calls", "anchors": ["pkg/idxtable/table.go:ClaimDynamic", "pkg/table/table16/table16.go:ClaimFree", "pkg/iptable/iptable.go:FindFree", "pkg/iptable/iptable.go:Claim", "pkg/tree/tree16/tree16.go:ClaimFree", "pkg/tree/tree32/tree32.go:ClaimFree", "pkg/tree/tree64/tree64.go:ClaimFree"]}
{"id": "C115", "title": "The three ranged tables are interchangeable", "statement": "table16, table32 and table64 made for the same range give the same replies to every history of calls, apart from the lengths of the ids in entries.", "quantifier": "all ranges that fit into both widths, all histories", "why_tests_cant": "relates three packages", "anchors": ["pkg/table/table16/table16.go:New", "pkg/table/table32/table32.go:New", "pkg/table/table64/table64.go:New"]}
{"id": "C116", "title": "Calls on any tree take effect one after the other", "statement": "If the clients let ClaimRange run alone, and never run a call other than Get, Update, ClaimID, Children and Parents at the same time as another call that changes the tree, then the calls of every concurrent history on a tree can be put in an order, compatible with the order in which they were made, in which the same code executed without concurrency gives the same replies. For a tree64 these are the replies of a set of prefixes with one entry that all of them share.", "quantifier": "all schedules, any number of threads, trees of all widths and lengths with any entries, ids of any length (tree64: up to 64)", "why_tests_cant": "all interleavings; holds also where the trees themselves are wrong", "anchors": ["pkg/tree/tree16/tree16.go:Get", "pkg/tree/tree32/tree32.go:Get", "pkg/tree/tree64/tree64.go:Get", "pkg/tree/tree16/tree16.go:Update", "pkg/tree/tree32/tree32.go:Update", "pkg/tree/tree64/tree64.go:Update", "pkg/tree/tree16/tree16.go:ClaimID", "pkg/tree/tree32/tree32.go:ClaimID", "pkg/tree/tree64/tree64.go:ClaimID", "pkg/tree/tree16/tree16.go:ClaimRange", "pkg/tree/tree32/tree32.go:ClaimRange", "pkg/tree/tree64/tree64.go:ClaimRange", "pkg/tree/tree16/tree16.go:ReleaseID", "pkg/tree/tree32/tree32.go:ReleaseID", "pkg/tree/tree64/tree64.go:ReleaseID", "pkg/tree/tree16/tree16.go:Children", "pkg/tree/tree32/tree32.go:Children", "pkg/tree/tree64/tree64.go:Children", "pkg/tree/tree16/tree16.go:Parents", "pkg/tree/tree32/tree32.go:Parents", "pkg/tree/tree64/tree64.go:Parents"]}
{"id": "C117", "title": "Where the range of a ranged table starts makes no difference", "statement": "A table made for the range start+k to stop+k replies to calls about ids larger by k as a table made for start to stop replies to the original calls, with ids larger by k.", "quantifier": "all ranges and k for which both ranges fit into the width, all histories, all ids also outside of the range, widths 16/32/64", "why_tests_cant": "relates all pairs of ranges; tests use one range", "anchors": ["pkg/table/table16/table16.go:New", "pkg/table/table16/table16.go:Claim", "pkg/table/table16/table16.go:FindFree", "pkg/table/table16/table16.go:GetAll"]}
{"id": "C118", "title": "Which addresses an IP table is for makes no difference", "statement": "Two IP tables made for ranges with the same number of addresses, IPv4 or IPv6, give the same replies to histories about addresses at the same places of the two ranges, FindFree returning the addresses at the same place. If there are fewer than 2^64 addresses, these are the replies of a table64 for the numbers from 0 whose ids are the places of the addresses.", "quantifier": "all nonempty ranges of any size, all parsers, all texts including those that denote no address of the range, all histories", "why_tests_cant": "relates all pairs of ranges, also of different families", "anchors": ["pkg/iptable/iptable.go:New", "pkg/iptable/iptable.go:calculateIndex", "pkg/iptable/iptable.go:calculateIPFromIndex", "pkg/iptable/iptable.go:validateIP", "pkg/iptable/iptable.go:FindFree"]}
{"id": "C119", "title": "Listing a tree while entries are replaced", "statement": "A GetAll, GetByLabel or Size of a tree that overlaps only with calls that replace the entries of prefixes claimed when it starts, and with calls that change nothing, lists exactly the claimed prefixes, in order, each once, each with an entry that it had at a moment during the call; Size returns their number, and GetByLabel returns exactly those prefixes whose entry it found matching, with an entry whose labels match.", "quantifier": "all schedules, any number of threads, trees with any claimed prefixes, widths 16/32", "why_tests_cant": "all interleavings; the loops run without lock, one round of the iterator at a time", "anchors": ["pkg/tree/tree16/tree16.go:GetAll", "pkg/tree/tree32/tree32.go:GetAll", "pkg/tree/tree64/tree64.go:GetAll", "pkg/tree/tree16/tree16.go:GetByLabel", "pkg/tree/tree32/tree32.go:GetByLabel", "pkg/tree/tree64/tree64.go:GetByLabel", "pkg/tree/tree16/tree16.go:Size", "pkg/tree/tree32/tree32.go:Size", "pkg/tree/tree64/tree64.go:Size", "pkg/tree/tree16/tree16.go:Update", "pkg/tree/tree32/tree32.go:Update", "pkg/tree/tree64/tree64.go:Update", "pkg/tree/tree.go:Next"]}
{"id": "C120", "title": "The three kinds of trees are interchangeable", "statement": "A tree16, a tree32 and a tree64 of the same length give the same replies to every history of calls, apart from the lengths of the ids, which are larger by 16 and 48.", "quantifier": "all lengths up to 16, all histories of ClaimID, Update, ClaimFree, ClaimRange with texts that name ids of 16 bits, ReleaseID and ReleaseByLabel, followed by any query", "why_tests_cant": "relates three packages", "anchors": ["pkg/tree/tree16/tree16.go:New", "pkg/tree/tree16/tree16.go:ClaimID", "pkg/tree/tree16/tree16.go:ClaimFree", "pkg/tree/tree16/tree16.go:ClaimRange", "pkg/tree/tree16/tree16.go:ReleaseID", "pkg/tree/tree32/tree32.go:New", "pkg/tree/tree32/tree32.go:ClaimID", "pkg/tree/tree32/tree32.go:ClaimFree", "pkg/tree/tree32/tree32.go:ClaimRange", "pkg/tree/tree32/tree32.go:ReleaseID", "pkg/tree/tree64/tree64.go:New", "pkg/tree/tree64/tree64.go:ClaimID", "pkg/tree/tree64/tree64.go:ClaimFree", "pkg/tree/tree64/tree64.go:ClaimRange", "pkg/tree/tree64/tree64.go:ReleaseID"]}
{"id": "C121", "title": "A tree with ids of full length stands in for a table", "statement": "The claims, updates and releases that succeed on a ranged table for the ids below 2^n succeed as well when they are made on a tree of length n with ids of full length (ClaimID for the id that ClaimFree of the table returned), and afterwards Get, GetAll, GetByLabel and Size of the two return the same ids and labels in the same order; ClaimFree of the tree returns an id that is free in the table, and fails exactly if none is.", "quantifier": "all n, all histories of calls on the table, tables of all widths greater than n, trees of all widths of at least n", "why_tests_cant": "relates the two families of packages; tests look at one package at a time", "anchors": ["pkg/table/table16/table16.go:Claim", "pkg/table/table16/table16.go:ClaimFree", "pkg/table/table16/table16.go:Update", "pkg/table/table16/table16.go:Release", "pkg/table/table16/table16.go:GetAll", "pkg/tree/tree16/tree16.go:ClaimID", "pkg/tree/tree32/tree32.go:ClaimID", "pkg/tree/tree64/tree64.go:ClaimID", "pkg/tree/tree16/tree16.go:Update", "pkg/tree/tree32/tree32.go:Update", "pkg/tree/tree64/tree64.go:Update", "pkg/tree/tree16/tree16.go:ReleaseID", "pkg/tree/tree32/tree32.go:ReleaseID", "pkg/tree/tree64/tree64.go:ReleaseID", "pkg/tree/tree16/tree16.go:GetAll", "pkg/tree/tree32/tree32.go:GetAll", "pkg/tree/tree64/tree64.go:GetAll", "pkg/tree/tree16/tree16.go:ClaimFree", "pkg/tree/tree32/tree32.go:ClaimFree", "pkg/tree/tree64/tree64.go:ClaimFree"]}
{"id": "C122", "title": "Texts of addresses", "statement": "The text that String writes for an address that FindFree returned is read back by Claim, Get, Has, Release and Update as this address, so that a client can allocate with FindFree and Claim until every address is handed out once; different addresses have different texts; an IPv4 address has only one text, its four bytes in decimal without leading zeros, and an IPv4 table refuses every other text, also the IPv6 text of the same bytes.", "quantifier": "all addresses of both families, with and without zone, all texts, all ranges of fewer than 2^64 addresses, all histories", "why_tests_cant": "2^128 addresses and all texts", "anchors": ["pkg/iptable/iptable.go:validateIP", "pkg/iptable/iptable.go:FindFree", "pkg/iptable/iptable.go:Claim", "pkg/iptable/iptable.go:Get", "pkg/iptable/iptable.go:Release"]}
{"id": "C123", "title": "What the loops of the prefix tree cost", "statement": "An iteration over the prefix tree takes at most 5 n + 1 rounds of the loop of Next, where n is the number of prefixes stored at that time, however many were stored before; the loops of Set and Add and the search of Delete take at most one round more than the prefix has bits. For the trees, n is the Size.", "quantifier": "pkg/tree: widths 16/32/64, all histories of Set, Add and Delete; trees: all histories of tree16 and tree64, those of tree32 in which the entries need at most 2^32 nodes", "why_tests_cant": "bounds for all sizes and all histories; tests do not measure time", "anchors": ["pkg/tree/tree.go:Next", "pkg/tree/tree.go:add", "pkg/tree/tree.go:DeleteWithBuffer", "pkg/tree/tree16/tree16.go:GetAll", "pkg/tree/tree32/tree32.go:GetAll", "pkg/tree/tree64/tree64.go:GetAll", "pkg/tree/tree16/tree16.go:Size", "pkg/tree/tree32/tree32.go:Size", "pkg/tree/tree64/tree64.go:Size"]}
{"id": "C124", "title": "Which texts denote IPv6 addresses", "statement": "A text names an IPv6 address exactly if it consists of eight groups of one to four hexadecimal digits with colons between them, the last two possibly written as an IPv4 address, or of fewer with one :: for the missing ones, followed by nothing or by % and a zone; the address is the number with these groups. A table for a range of IPv6 addresses refuses every other text, and texts with a zone or of an address outside of the range, in all calls; texts of the same address are interchangeable in all calls.", "quantifier": "all texts, all IPv6 ranges, all histories", "why_tests_cant": "all texts; an address has many", "anchors": ["pkg/iptable/iptable.go:validateIP", "pkg/iptable/iptable.go:Claim", "pkg/iptable/iptable.go:Update", "pkg/iptable/iptable.go:Release", "pkg/iptable/iptable.go:Get", "pkg/iptable/iptable.go:Has", "pkg/iptable/iptable.go:IsFree"]}
{"id": "C125", "title": "What the calls of the tables cost", "statement": "A call on an index table, a ranged table or an IP table that names an id or an address looks at the table at most four times, whatever the size of the table; one that lists entries looks at it at most twice per claimed id, plus a constant; one that searches for a free id at most once per claimed id, plus a constant.", "quantifier": "all executions, any number of goroutines, all calls; ranged tables of all but the full range, IP tables of fewer than 2^64 addresses", "why_tests_cant": "bounds for all sizes and schedules; tests do not measure time", "anchors": ["pkg/idxtable/table.go:iterateFree", "pkg/idxtable/table.go:FindFree", "pkg/idxtable/table.go:ClaimDynamic", "pkg/idxtable/table.go:GetAll", "pkg/table/table16/table16.go:ClaimFree", "pkg/table/table16/table16.go:FindFree", "pkg/iptable/iptable.go:FindFree"]}
{"id": "C126", "title": "A table built on a tree", "statement": "A client that uses a tree of length n with ids of full length as a table for the ids below 2^n, refusing larger ids, asking Get before ClaimID and Update, and taking as free id the lowest that GetAll does not list, gets in every history of calls exactly the replies of a ranged table, those of calls that fail included; it never panics. The calls of the tree alone, without these checks, are not those of a table.", "quantifier": "all n, all histories of the eleven calls of a table, tables of all widths greater than n, trees of all widths of at least n", "why_tests_cant": "relates the two families of packages for all histories; tests look at one package at a time", "anchors": ["pkg/table/table16/table16.go:Claim", "pkg/table/table16/table16.go:ClaimFree", "pkg/table/table16/table16.go:Update", "pkg/table/table16/table16.go:Release", "pkg/table/table16/table16.go:GetAll", "pkg/table/table16/table16.go:FindFree", "pkg/tree/tree16/tree16.go:Get", "pkg/tree/tree32/tree32.go:Get", "pkg/tree/tree64/tree64.go:Get", "pkg/tree/tree16/tree16.go:ClaimID", "pkg/tree/tree32/tree32.go:ClaimID", "pkg/tree/tree64/tree64.go:ClaimID", "pkg/tree/tree16/tree16.go:Update", "pkg/tree/tree32/tree32.go:Update", "pkg/tree/tree64/tree64.go:Update", "pkg/tree/tree16/tree16.go:ReleaseID", "pkg/tree/tree32/tree32.go:ReleaseID", "pkg/tree/tree64/tree64.go:ReleaseID", "pkg/tree/tree16/tree16.go:GetAll", "pkg/tree/tree32/tree32.go:GetAll", "pkg/tree/tree64/tree64.go:GetAll", "pkg/tree/tree16/tree16.go:GetByLabel", "pkg/tree/tree32/tree32.go:GetByLabel", "pkg/tree/tree64/tree64.go:GetByLabel", "pkg/tree/tree16/tree16.go:Size", "pkg/tree/tree32/tree32.go:Size", "pkg/tree/tree64/tree64.go:Size"]}
{"id": "C127", "title": "A set can be taken apart and put together again", "statement": "The ranges of a set, or the texts that String writes for them and ParseRange reads, or the prefixes that IDs lists, given to a new builder in any order and any number of times, give a set with the same ranges, without error; taken away from the set, they leave the empty set.", "quantifier": "all sets as C37 describes them (texts and prefixes: of ids of full length), all orders, widths 16/32/64", "why_tests_cant": "all sets; the parts of the package are tested one by one, not against each other", "anchors": ["pkg/tree/id32/idset.go:AddRange", "pkg/tree/id32/idset.go:AddId", "pkg/tree/id32/idset.go:AddSet", "pkg/tree/id32/idset.go:RemoveRange", "pkg/tree/id32/idset.go:RemoveId", "pkg/tree/id32/idset.go:IPSet", "pkg/tree/id32/idset.go:IDs", "pkg/tree/id16/idset.go:AddRange", "pkg/tree/id16/idset.go:AddId", "pkg/tree/id16/idset.go:AddSet", "pkg/tree/id16/idset.go:RemoveRange", "pkg/tree/id16/idset.go:RemoveId", "pkg/tree/id16/idset.go:IPSet", "pkg/tree/id16/idset.go:IDs", "pkg/tree/id64/idset.go:AddRange", "pkg/tree/id64/idset.go:AddId", "pkg/tree/id64/idset.go:AddSet", "pkg/tree/id64/idset.go:RemoveRange", "pkg/tree/id64/idset.go:RemoveId", "pkg/tree/id64/idset.go:IPSet", "pkg/tree/id64/idset.go:IDs", "pkg/tree/id32/range32.go:ParseRange", "pkg/tree/id16/range16.go:ParseRange", "pkg/tree/id64/range64.go:ParseRange"]}
{"id": "C128", "title": "A table can be rebuilt from what it lists", "statement": "Claiming in a new table of the same capacity or range, or in a new tree of the same length, the ids and contents that GetAll lists (IP table: a text of each claimed address with the route that Get returns), in any order, succeeds every time, and from then on the new table or tree gives the same replies to all calls as the old one.", "quantifier": "all histories, all orders of the claims; index table of every capacity but 0, ranged tables of all ranges but that of the whole type for table64, IP tables of fewer than 2^64 addresses, trees of all widths and lengths", "why_tests_cant": "relates the contents after all histories to all later calls", "anchors": ["pkg/idxtable/table.go:GetAll", "pkg/idxtable/table.go:Claim", "pkg/table/table16/table16.go:GetAll", "pkg/table/table16/table16.go:Claim", "pkg/iptable/iptable.go:Get", "pkg/iptable/iptable.go:Claim", "pkg/tree/tree16/tree16.go:GetAll", "pkg/tree/tree32/tree32.go:GetAll", "pkg/tree/tree64/tree64.go:GetAll", "pkg/tree/tree16/tree16.go:ClaimID", "pkg/tree/tree32/tree32.go:ClaimID", "pkg/tree/tree64/tree64.go:ClaimID", "pkg/tree/tree16/tree16.go:ClaimRange", "pkg/tree/tree32/tree32.go:ClaimRange", "pkg/tree/tree64/tree64.go:ClaimRange"]}
{"id": "C129", "title": "An emptied table is as good as new", "statement": "Once every id or address that is claimed was released, in any order and whatever else was released, a table gives the same replies to all calls as a new one of the same capacity or range; so does a tree after ReleaseByLabel with a selector that matches everything, or ReleaseID of all ids that GetAll lists.", "quantifier": "all histories, all orders of the releases; index table, ranged tables of all ranges, IP tables of fewer than 2^64 addresses, trees of all widths and lengths", "why_tests_cant": "relates all histories to all later calls", "anchors": ["pkg/idxtable/table.go:Release", "pkg/table/table16/table16.go:Release", "pkg/iptable/iptable.go:Release", "pkg/tree/tree16/tree16.go:ReleaseID", "pkg/tree/tree32/tree32.go:ReleaseID", "pkg/tree/tree64/tree64.go:ReleaseID", "pkg/tree/tree16/tree16.go:ReleaseByLabel", "pkg/tree/tree32/tree32.go:ReleaseByLabel", "pkg/tree/tree64/tree64.go:ReleaseByLabel"]}
{"id": "C130", "title": "An update is a release and a claim", "statement": "Update of a claimed id or address succeeds and leaves a table or tree that no later calls tell from the one in which the id was released and claimed with the new contents; of several updates only the last one counts.", "quantifier": "all histories, all claimed ids and contents (trees: all ids below 2^length); index table, ranged tables of all ranges, IP tables of fewer than 2^64 addresses with any texts of the address, trees of all widths and lengths", "why_tests_cant": "relates all histories to all later calls", "anchors": ["pkg/idxtable/table.go:Update", "pkg/idxtable/table.go:update", "pkg/table/table16/table16.go:Update", "pkg/iptable/iptable.go:Update", "pkg/tree/tree16/tree16.go:Update", "pkg/tree/tree32/tree32.go:Update", "pkg/tree/tree64/tree64.go:Update", "pkg/tree/tree16/tree16.go:ReleaseID", "pkg/tree/tree32/tree32.go:ReleaseID", "pkg/tree/tree64/tree64.go:ReleaseID", "pkg/tree/tree16/tree16.go:ClaimID", "pkg/tree/tree32/tree32.go:ClaimID", "pkg/tree/tree64/tree64.go:ClaimID"]}
{"id": "C131", "title": "Releasing by label is releasing one by one", "statement": "ReleaseByLabel leaves exactly what GetByLabel lists for the opposite selector, and nothing that matches. No later calls tell the tree from one in which the ids that GetByLabel lists were released with ReleaseID, in any order; two calls of ReleaseByLabel do what one call does whose selector matches what one of the two matches, so that order and repetition make no difference.", "quantifier": "all histories, all selectors, all orders of the releases, trees of all widths and lengths", "why_tests_cant": "all histories, selectors and later calls", "anchors": ["pkg/tree/tree16/tree16.go:ReleaseByLabel", "pkg/tree/tree32/tree32.go:ReleaseByLabel", "pkg/tree/tree64/tree64.go:ReleaseByLabel", "pkg/tree/tree16/tree16.go:ReleaseID", "pkg/tree/tree32/tree32.go:ReleaseID", "pkg/tree/tree64/tree64.go:ReleaseID", "pkg/tree/tree16/tree16.go:GetByLabel", "pkg/tree/tree32/tree32.go:GetByLabel", "pkg/tree/tree64/tree64.go:GetByLabel"]}
{"id": "C132", "title": "ClaimRange of the range of a prefix claims the prefix", "statement": "ClaimRange with the text of the range that RangeOfID gives for a prefix (without bits behind its length) succeeds and claims this prefix and nothing else, whatever the length of the tree; no later calls tell this from a ClaimID of the prefix where that succeeds. So every tree can be built again from what GetAll lists, in any order, with ClaimID for the ids below 2^length and ClaimRange for the others, those that inverted ranges stored included.", "quantifier": "all histories, all prefixes, all orders, trees of all widths and lengths", "why_tests_cant": "all prefixes and histories; ties parsing, decomposition and the trees together", "anchors": ["pkg/tree/tree16/tree16.go:ClaimRange", "pkg/tree/tree32/tree32.go:ClaimRange", "pkg/tree/tree64/tree64.go:ClaimRange", "pkg/tree/tree16/tree16.go:ClaimID", "pkg/tree/tree32/tree32.go:ClaimID", "pkg/tree/tree64/tree64.go:ClaimID", "pkg/tree/tree16/tree16.go:GetAll", "pkg/tree/tree32/tree32.go:GetAll", "pkg/tree/tree64/tree64.go:GetAll", "pkg/tree/id32/range32.go:RangeOfID", "pkg/tree/id32/range32.go:ParseRange", "pkg/tree/id16/range16.go:RangeOfID", "pkg/tree/id16/range16.go:ParseRange", "pkg/tree/id64/range64.go:RangeOfID", "pkg/tree/id64/range64.go:ParseRange"]}
