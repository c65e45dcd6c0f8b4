"""Seeded bugs: textual edits of the model that mimic realistic programming errors."""
MUTATIONS = []


def m(name, definition, file, edit, breaks, old, new, **kw):
    MUTATIONS.append(dict(name=name, definition=definition, file=file, edit=edit, breaks=breaks,
                          old=old, new=new, **kw))


I = "Model/InfMem.lean"
m("inf-newB-drops-hyperA", "Walk.body", I, "new indices of B forget the hyper-indices of A", "C13",
  "let newB := indsD.xor indsC ∪ o.hyper posA ∪ o.hyper w.posB",
  "let newB := indsD.xor indsC ∪ o.hyper w.posB")
m("inf-newB-drops-hyperB", "Walk.body", I, "new indices of B forget the hyper-indices of B", "C13",
  "let newB := indsD.xor indsC ∪ o.hyper posA ∪ o.hyper w.posB",
  "let newB := indsD.xor indsC ∪ o.hyper posA")
m("inf-hyperB-not-updated", "Walk.body", I, "hyper-index cache of B computed from E instead of C", "C13/C14",
  "w.posB (newB ∩ indsD ∩ indsC)", "w.posB (newB ∩ indsD ∩ indsE)")
m("inf-delta-misses-A", "Walk.body", I, "delta ignores the cost change at A", "C14",
  "(newCostB - o.cost.contractionCost w.posB) + (newCostA - o.cost.contractionCost posA)",
  "(newCostB - o.cost.contractionCost w.posB)")
m("inf-partial-not-swapped", "Walk.body", I, "partial costs propagated with the old C and E", "C14",
  "(o.cost.partialCost posD + o.cost.partialCost posC + cc w.posB)",
  "(o.cost.partialCost posD + o.cost.partialCost posE + cc w.posB)")
m("inf-min-wrong-direction", "InfOpt.updateMin", I, "minimum updated when the cost is larger", "C15",
  "if o.totalCost < o.minTotal then", "if o.minTotal < o.totalCost then")
m("inf-min-forgets-tree", "InfOpt.updateMin", I, "minimum cost stored without the tree", "C15",
  "{ o with minTotal := o.totalCost, minCtree := o.ctree } else o", "{ o with minTotal := o.totalCost } else o")
m("inf-nn-wrong-D", "getCtreeNN", I, "D chosen as the child that does NOT share an index with C", "C16",
  "else if inter0 then (some (posA, posC, p0, p1), s) else (some (posA, posC, p1, p0), s)",
  "else if inter0 then (some (posA, posC, p1, p0), s) else (some (posA, posC, p0, p1), s)")
m("inf-nn-or", "getCtreeNN", I, "random choice already if only one child shares an index", "C16",
  "if disableShared || (inter0 && inter1) then", "if disableShared || (inter0 || inter1) then")
m("inf-swap-wrong-node", "Walk.body", I, "swap_with_nn(pos_D) instead of pos_E", "C13",
  "c.tree.swapWithNN posE", "c.tree.swapWithNN posD")
m("inf-make-no-shared-check", "InfOpt.make", I, "constructor never checks shared indices", "C16",
  "if !(ctree.isValid !disableShared) || !(minC.isValid !disableShared) then",
  "if !(ctree.isValid false) || !(minC.isValid false) then")
m("inf-make-min-cost-of-ctree", "InfOpt.make", I, "initial minimum cost computed from ctree, not min_ctree", "C15",
  "let mt ← getCost minC.fuel m minC", "let mt ← getCost ctree.fuel m ctree")
m("greedy-accepts-all", "probGreedy", "Model/Prob.lean", "Greedy returns 1 for every delta", "C17",
  "if delta ≤ 0 then 1 else 0", "if delta ≤ 0 then 1 else 1")
m("mh-sign", "probMH", "Model/Prob.lean", "exponent +beta", "C18", "^ (-beta)", "^ beta")
m("mh-delta-lt", "probMH", "Model/Prob.lean", "divides by new instead of old", "C18",
  "(1 + delta / old)", "(1 + delta / (old + delta))")
m("cost-int-off", "simpleGet", "Model/Cost.lean", "power uses card + 1", "C19",
  "d ^ inds.card", "d ^ (inds.card + 1)")
m("cost-intersection", "CostModel.contractionCost", I, "cost of the common indices only", "C19/C14",
  "m.get (a ∪ b)", "m.get (a ∩ b)")
m("sparse-max", "sparseGet", "Model/Cost.lean", "max instead of min with n_projs", "C20",
  "(if simpleGet dims (inds ∩ sparse) < nProjs then", "(if nProjs < simpleGet dims (inds ∩ sparse) then")
m("sparse-swapped-sets", "sparseGet", "Model/Cost.lean", "cap applied to the dense indices", "C20",
  "simpleGet dims (inds \\ sparse) *", "simpleGet dims (inds ∩ sparse) *")
T = "Model/Tree.lean"
m("tree-valid-no-root-last", "Tree.isValid", T, "does not check that the last node is the root", "C05",
  "else if !(T.nodes (T.size - 1)).isRoot then false", "else if false then false")
m("tree-valid-no-leaf-order", "Tree.isValid", T, "does not check that leaves come first", "C05",
  "else if (List.range T.nLeaves).countP (fun i => (T.nodes i).isLeaf) != T.nLeaves then false",
  "else if false then false")
m("tree-valid-child-count-off", "Tree.isValid", T, "child count compared with the wrong flag (rejects valid trees)", "C05",
  "!(T.countParents i == (if (T.nodes i).isLeaf then 1 else 0))",
  "!(T.countParents i == (if (T.nodes i).isLeaf then 0 else 1))")
m("tree-swap-parent-missing", "Tree.swapWithNN", T, "parent of D not updated", "C06",
  "let n4 := Function.update n3 posD { n3 posD with parent := some posA } -- 183", "let n4 := n3")
m("tree-swap-wrong-sibling", "Tree.swapWithNN", T, "sibling selection inverted", "C06",
  "match (if (T.nodes posA).c0 == some posB then (T.nodes posA).c1 else (T.nodes posA).c0) with",
  "match (if (T.nodes posA).c0 == some posB then (T.nodes posA).c0 else (T.nodes posA).c1) with")
m("tree-swap-slot", "Tree.replaceChild", T, "always overwrites slot 0", "C06",
  "if n.c0 == some x then { n with c0 := some y } else { n with c1 := some y }",
  "if n.c0 == some x then { n with c0 := some y } else { n with c0 := some y }")
m("tree-swap-no-root-guard", "Tree.swapWithNN", T, "a child of the root is moved instead of left alone", "C06",
  "      | none => T                                           -- 167",
  "      | none => ⟨T.size, Function.update T.nodes posD { T.nodes posD with parent := none }⟩")
R = "Model/Traverse.lean"
m("traverse-order", "traverseLoop", R, "children pushed in the opposite order", "C07",
  "(a :: b :: pos :: stack)", "(b :: a :: pos :: stack)")
m("traverse-preorder", "traverseLoop", R, "callback before the children", "C07",
  "traverseLoop T fuel (a :: b :: pos :: stack) (Function.update visited pos true) out",
  "traverseLoop T fuel (a :: b :: stack) (Function.update visited pos true) (out ++ [pos])")
m("traverse-no-visited", "traverseLoop", R, "visited flag never set (never terminates)", "C07",
  "(Function.update visited pos true) out", "visited out")
m("contraction-swapped", "getContraction", R, "children reported in the wrong order", "C08",
  "| some a, some b => some (a, b, pos)", "| some a, some b => some (b, a, pos)")
m("ctree-valid-superset", "CTree.nodeOk", "Model/CTree.lean", "does not check that a node carries only indices of its children", "C13",
  "!decide (c.inds i ⊆ c.inds a ∪ c.inds b))", "false)")
m("ctree-valid-xor", "CTree.nodeOk", "Model/CTree.lean", "does not check that unshared indices survive", "C13",
  "!decide ((c.inds a).xor (c.inds b) ⊆ c.inds i) ||", "false ||")

B = "Model/Bitset.lean"
m("bits-string-order", "Bits.ofString", B, "string not reversed before it reaches boost", "C01",
  "boostOfString s.reverse", "boostOfString s")
m("bits-positions-bound", "Bits.ofPositions", B, "position equal to the size silently ignored", "C01",
  "if size ≤ x then none", "if size < x then none")
m("bits-visit-skip", "Bits.visitLoop", B, "continues the scan two positions further", "C01",
  "(findFrom b (p + 1))", "(findFrom b (p + 2))")
m("bits-sub-flipped", "Bits.sub", B, "difference with swapped operands", "C02",
  "(fun x y => x && !y)", "(fun x y => !x && y)")
m("bits-xor-or", "Bits.xor", B, "xor computed as or", "C02", "(· != ·)", "(· || ·)")
m("bits-proper-not-strict", "Bits.isProperSubset", B, "equal sets count as proper subsets", "C02",
  "| _, _, proper => proper", "| _, _, _ => true")
m("bits-getitem-bound", "Bits.getItem", B, "index equal to the size returns False", "C02",
  "if a.length ≤ i then none", "if a.length < i then none")
m("bitset-dup-accepted", "Bitset.make", B, "duplicated positions accepted", "C01",
  "if hasDuplicates l then .error \"ValueError\"", "if false then .error \"ValueError\"")
m("bitset-n-ignored", "Bitset.make", B, "length argument ignored for strings", "C01",
  "else if n ≠ none ∧ n ≠ some (s.length : ℤ) then .error \"ValueError\"", "else if False then .error \"ValueError\"")
O = "Model/OrderedFrozenSet.lean"
m("ofs-last-occurrence", "uniqueLoop", O, "keeps duplicates", "C03",
  "if x ∈ seen then uniqueLoop seen l else", "if x ∈ seen then x :: uniqueLoop seen l else")
m("ofs-union-order", "OFS.union", O, "right operand first", "C03",
  "make (s.order ++ (make l).order)", "make ((make l).order ++ s.order)")
m("ofs-symdiff-left-only", "OFS.symmetricDifference", O, "only elements of the left operand", "C03",
  "let sd := (s.set \\ o.set) ∪ (o.set \\ s.set)", "let sd := (s.set \\ o.set)")
m("ofs-subset-flipped", "OFS.issubset", O, "inclusion reversed", "C03",
  "decide (s.set ⊆ l.toFinset)", "decide (l.toFinset ⊆ s.set)")
m("ofs-disjoint", "OFS.isdisjoint", O, "any instead of all", "C03", "l.all fun x => x ∉ s.set", "l.any fun x => x ∉ s.set")
m("inf-valid-no-min", "InfOpt.isValid", "Model/InfValid.lean", "stored minimum cost compared with infinity tolerance (always false)", "C13",
  "if !(isLogClose mc o.minTotal atol) then return false", "if isLogClose mc o.minTotal atol then return false")
m("logclose-zero", "isLogClose", "Model/InfValid.lean", "two zero costs are not close", "C13",
  "decide (x = y)", "false")
PB = "Model/PathBuild.lean"
m("path-pop-order", "popPair", PB, "smaller position popped first, larger not adjusted", "C09",
  "(pos.eraseIdx (max x y))[min x y]?", "(pos.eraseIdx (min x y))[max x y]?")
m("path-new-front", "contractionLoop", PB, "result put at the front of the list", "C09",
  "(rest ++ [i + n]) path", "((i + n) :: rest) path")
m("path-step-label", "contractionLoop", PB, "label does not advance", "C09",
  "(contractionLoop n (i + 1) (rest", "(contractionLoop n i (rest")
m("path-tensors-unsorted", "tensorsPosOf", PB, "tensor positions not sorted", "C09",
  "sortNat ((uniqueEverseen (flattenTriples c)).filter (· < n))", "((uniqueEverseen (flattenTriples c)).filter (· < n))")
m("path-hyper-threshold", "outputOf", PB, "index of three tensors accepted without outputs", "C11",
  "decide (hyperCount used x > 1)", "decide (hyperCount used x > 2)")
m("path-output-kept", "outputOf", PB, "requested outputs not restricted to the contracted tensors", "C11",
  ".ok (l.toFinset ∩ (uniqueEverseen used).toFinset)", ".ok l.toFinset")
m("path-output-once", "addOutput", PB, "hyper-count of an output index not incremented", "C11",
  "if x ∈ out then hc x + 1 else hc x", "hc x")
m("path-shared-keep", "sharedLoop", PB, "shared index kept although all its tensors are contracted", "C10",
  "(if 0 < hc' s then insert s iz else iz)", "(insert s iz)")
m("path-shared-drop", "sharedLoop", PB, "shared index always dropped", "C10",
  "(if 0 < hc' s then insert s iz else iz)", "iz")
m("path-sym-diff", "indsLoop", PB, "indices only of the second tensor lost", "C10",
  "((ix \\ iy) ∪ (iy \\ ix))", "(ix \\ iy)")
m("path-children-parent", "writeNodes", PB, "parent of the second child not written", "C09",
  "let N2 := Function.update N1 y { N1 y with parent := some z }", "let N2 := N1")
m("path-check-ignored", "indsLoop", PB, "check_shared_inds ignored while building", "C09",
  "if check && decide (shared = ∅) then", "if false then")
m("path-rescale-shift", "PyTree.rescale", PB, "intermediate labels shifted by the number of leaves only", "C12",
  "| none => pos + n - nLeaves", "| none => pos - nLeaves")
m("path-out-no-pop", "PyTree.pathLoop", PB, "only the larger position removed", "C12",
  "(pathLoop c (((allPos.eraseIdx (max i j)).eraseIdx (min i j)) ++ [z]))", "(pathLoop c ((allPos.eraseIdx (max i j)) ++ [z]))")
m("path-out-front", "PyTree.pathLoop", PB, "result put at the front", "C12",
  "(((allPos.eraseIdx (max i j)).eraseIdx (min i j)) ++ [z])", "(z :: ((allPos.eraseIdx (max i j)).eraseIdx (min i j)))")
FW = "Model/FiniteWidth.lean"
m("fw-slice-stop-early", "sliceLoop", FW, "stop when the width still exceeds the limit", "C21",
  "if w' ≤ wm.maxWidth then insert x slices", "if wm.maxWidth < w' then insert x slices")
m("fw-slice-last-lost", "sliceLoop", FW, "the last index is not added", "C21",
  "if w' ≤ wm.maxWidth then insert x slices", "if w' ≤ wm.maxWidth then slices")
m("fw-slice-skip-ignored", "sliceVisit", FW, "skipped indices may be sliced", "C23",
  "g.shuffle st.2 (xs.minus? skip).positions", "g.shuffle st.2 xs.positions")
m("fw-slice-fresh", "sliceVisit", FW, "earlier slices forgotten at each big tensor", "C21",
  "l) st.1 xs (wm.width xs), s)", "l) ∅ xs (wm.width xs), s)")
m("fw-slice-sliced-width", "sliceVisit", FW, "unsliced index set used for the remaining width", "C21",
  "let xs := c.inds tpos \\ st.1", "let xs := c.inds tpos", note="slices already chosen are offered again; the loop may stop late, never early")
m("fw-new-slice-width", "newSliceLoop", FW, "width grows with a new slice", "C22",
  "(w - wm.log2d x) s", "(w + wm.log2d x) s")
m("fw-new-slice-lost", "newSliceLoop", FW, "new slice not recorded", "C22",
  "(insert x slices) (w - wm.log2d x) s", "slices (w - wm.log2d x) s")
m("fw-new-slice-repeat", "newSliceLoop", FW, "index stays available after being sliced", "C22",
  "newSliceLoop g wm k l' (insert", "newSliceLoop g wm k l (insert")
m("fw-new-slice-skip", "FwWalk.body", FW, "skipped indices may be sliced by a move", "C23",
  "let pos := ((newB \\ o.slices).minus? o.skip).positions", "let pos := (newB \\ o.slices).positions")
m("fw-accept-too-wide", "FwWalk.body", FW, "move tried whatever the new width", "C22",
  "if newSlicedWidthB ≤ wm.maxWidth then\n    -- 188-225", "if newSlicedWidthB ≤ wm.maxWidth ∨ True then\n    -- 188-225")
m("fw-new-too-wide", "FwWalk.body", FW, "move with new slices tried although still too wide", "C22",
  "if newSlicedWidthB ≤ wm.maxWidth then\n        -- 285-290", "if wm.maxWidth < newSlicedWidthB then\n        -- 285-290")
m("fw-reject-no-swap", "FwWalk.body", FW, "tree not swapped back on rejection", "C24",
  "tree := c'.tree.swapWithNN posC", "tree := c'.tree")
m("fw-reject-wrong-inds", "FwWalk.body", FW, "index set not restored on rejection", "C24",
  "inds := Function.update c'.inds w.posB indsB", "inds := c'.inds")
m("fw-accept-hyper-stale", "FwWalk.body", FW, "hyper cache not updated by an accepted move with new slices", "C24",
  "inf := { o.inf with prng := s, ctree := c', hyper := hyper', cost := k }", "inf := { o.inf with prng := s, ctree := c', cost := k }")
m("fw-accept-width-stale", "FwWalk.body", FW, "width cache not updated by an accepted move", "C24",
  "              width := width' }\n            posB", "               }\n            posB")
m("fw-accept-slices-stale", "FwWalk.body", FW, "new slices dropped", "C24",
  "                    width := width'\n                    slices := newSlices }", "                    width := width' }")
m("fw-update-slices-cost", "FwOpt.updateSlices", FW, "better slices taken without the new costs", "C24",
  ".ok { o with slices := newSlices, inf := { o.inf with prng := s, cost := k } }", ".ok { o with slices := newSlices, inf := { o.inf with prng := s } }")
m("fw-min-slices-stale", "FwOpt.updateMin", FW, "slices of the best tree not stored", "C24",
  "             minSlices := o.slices }", "              }")
m("fw-min-reversed", "FwOpt.updateMin", FW, "worst tree kept", "C24",
  "if o.inf.totalCost < o.inf.minTotal then", "if o.inf.minTotal < o.inf.totalCost then")
m("fw-make-nofit", "FwOpt.make", FW, "fit not checked by the constructor", "C22",
  "if !(allFit wm ctree sl) || !(allFit wm minC minSl) then return", "if false then return")
m("fw-propagate-order", "propagate", FW, "partial cost of the upper node computed from the stale lower one", "C24",
  "(pc1 posB + pc1 posC + k.contractionCost posA)", "(k.partialCost posB + pc1 posC + k.contractionCost posA)")
m("fw-cost-not-sliced", "CostModel.sliced", FW, "slices not counted in the cost", "C46",
  "⟨fun x => m.get (x ∪ slices)⟩", "⟨fun x => m.get x⟩")
m("fw-cost-minus-slices", "CostModel.sliced", FW, "sliced indices removed from the cost", "C46",
  "⟨fun x => m.get (x ∪ slices)⟩", "⟨fun x => m.get (x \\ slices)⟩")
WD = "Model/Width.lean"
m("width-delta-sign", "simpleDelta", WD, "sign reversed", "C46",
  "(1 - 2 * (if pos ∈ xs then 1 else 0) : ℤ)", "(2 * (if pos ∈ xs then 1 else 0) - 1 : ℤ)")
m("width-sparse-max", "minW", WD, "maximum instead of minimum", "C46", "if x < y then x else y", "if x < y then y else x")
m("width-sparse-swap", "sparseWidth", WD, "dense and sparse parts exchanged", "C46",
  "simpleWidth log2 dims (xs \\ sparse) + minW (simpleWidth log2 dims (xs ∩ sparse))", "simpleWidth log2 dims (xs ∩ sparse) + minW (simpleWidth log2 dims (xs \\ sparse))")
m("width-sparse-delta-dense", "sparseDelta", WD, "cap ignored in the difference", "C46",
  "minW (simpleWidth log2 dims (xs.toggle pos ∩ sparse)) (log2 nProjs) -\n      minW (simpleWidth log2 dims (xs ∩ sparse)) (log2 nProjs)", "simpleDelta log2 dims xs pos")
m("width-toggle", "ISet.toggle", WD, "only inserts", "C46", "if pos ∈ xs then xs.erase pos else insert pos xs", "insert pos xs")
FV = "Model/FwValid.lean"
m("fwvalid-compare-any", "compareArrays", FV, "one agreeing entry is enough", "C48", "foldl (· && ·) true", "foldl (· || ·) false")
m("fwvalid-length", "compareArrays", FV, "lengths not compared", "C48", "if x.length ≠ y.length then false else (List", "if false then false else (List")
m("fwvalid-close-strict", "isClose", FV, "strict comparison", "C48", "|x - y| ≤ atol", "|x - y| < atol")
m("fwvalid-cost-half", "costCacheIsCloseTo", FV, "contraction costs not compared", "C48",
  " && allLogCloseL contrX contrY atol", "")
m("fwvalid-dims-fixed", "dimsCacheIsCloseTo", FV, "the repaired program: scalars compared with each other", "C48 (violation disappears)",
  "| .one x, .one _, atol => isClose x x atol", "| .one x, .one y, atol => isClose x y atol", note="the theorem recording the violation must fail for the repaired code")
PK = "Model/Pickle.lean"
m("pickle-maxnew-kept", "PyFw.unpickle", PK, "the repaired program: max_number_new_slices shipped", "C26 (violation disappears)",
  "PyFw.make g cm wm t 0 o.core.inf.prng", "PyFw.make g cm wm t o.core.maxNew o.core.inf.prng", note="the theorem recording the violation must fail for the repaired code")
m("pickle-min-tree-current", "PyInf.unpickle", PK, "best tree replaced by the current one", "C26",
  "(some mt)\n  | .error e, _ => .error (.tree e)\n  | _, .error e => .error (.tree e)\n\n/-- The Python optimizer of finite", "(some t)\n  | .error e, _ => .error (.tree e)\n  | _, .error e => .error (.tree e)\n\n/-- The Python optimizer of finite")
m("pickle-flag-lost", "PyInf.unpickle", PK, "disable_shared_inds not shipped", "C26",
  "PyInf.make cm t o.core.prng o.core.disableShared", "PyInf.make cm t o.core.prng false")
m("pickle-fw-min-slices", "PyFw.unpickle", PK, "best slices replaced by the current ones", "C26",
  "o.skip (some mt) (some sl) (some msl)", "o.skip (some mt) (some sl) (some sl)")
m("pickle-fw-skip-lost", "PyFw.unpickle", PK, "skip_slices not shipped", "C26",
  "o.skip (some mt) (some sl) (some msl)", "∅ (some mt) (some sl) (some msl)")
m("pickle-dims-shift", "dimOf", PK, "dimension of the next index", "C26",
  "| .vec l => l[order.idxOf x]?", "| .vec l => l[order.idxOf x + 1]?")
m("pickle-names-reversed", "namesOf", PK, "names looked up in reversed order", "C26",
  ".mapM fun i => order[i]?", ".mapM fun i => order.reverse[i]?")
m("pickle-order-unchecked", "PyTree.ofNodes", PK, "index order compared with the wrong sense", "C26",
  "if k.indsOrder.toFinset ≠ tsInds.flatten.toFinset then", "if k.indsOrder.toFinset = tsInds.flatten.toFinset then")
MS = "Model/MergeSplit.lean"
m("merge-index-order", "mergeLoop", MS, "operand positions not sorted", "C28",
  "let mx := min (mpos.idxOf px) (mpos.idxOf py)\n        let my := max (mpos.idxOf px) (mpos.idxOf py)", "let mx := mpos.idxOf px\n        let my := mpos.idxOf py")
m("merge-label-no-path", "mergeLoop", MS, "intermediate tensors of different paths share labels", "C28",
  "let z := Lbl.made i rest.length", "let z := Lbl.made 0 rest.length")
m("merge-pos-shared", "mergeAll", MS, "positions of a path start from the merged list", "C28",
  "match mergeLoop i ((List.range n).map .tensor) mpos path with", "match mergeLoop i mpos mpos path with")
m("merge-no-error", "mergeLoop", MS, "wrong exception for overlapping paths", "C28",
  "else .error .valueError", "else .error .indexError")
m("merge-auto-one-more", "mergePaths", MS, "one step too many", "C28",
  "List.replicate (m.length - 1) (0, 1)", "List.replicate m.length (0, 1)")
m("merge-auto-pos", "mergePaths", MS, "completion contracts the wrong positions", "C28",
  "List.replicate (m.length - 1) (0, 1)", "List.replicate (m.length - 1) (0, 2)")
m("split-color-max", "colorLoop", MS, "larger colour kept", "none: the colour is only a name",
  "let cz := min cx cy", "let cz := max cx cy", note="expected to be harmless up to the order of the components; the proof uses the minimum")
m("split-color-drop", "colorLoop", MS, "tensors of the second operand forgotten", "C29",
  "let sz := sx ∪ sy ∪ {m + 1}", "let sz := sx ∪ {m + 1}")
m("split-no-recolor", "colorLoop", MS, "only the new tensor is recoloured", "C29",
  "fun t => if t ∈ sz then some cz else s.tensor2color t", "fun t => if t = m + 1 then some cz else s.tensor2color t",
  note="old labels are never looked up again")
m("split-normalize-unsorted", "splitPath", MS, "normalised lists reversed", "C29",
  "cc.map sortSet", "cc.map fun s => (sortSet s).reverse")
m("split-lists-global", "splitPath", MS, "normalize_paths ignored", "C29",
  "if normalize then cc.map sortSet else cc.map fun _ => List.range n", "cc.map fun _ => List.range n")
m("split-comp-all", "splitPath", MS, "intermediate tensors left in the components", "C29",
  "cc.map fun s => s.filter (· < n)", "cc")
m("split-comp-le", "splitPath", MS, "off by one", "none: no label n is ever made",
  "cc.map fun s => s.filter (· < n)", "cc.map fun s => s.filter (· ≤ n)", note="labels made are larger than n, so n never occurs")
m("split-append-missing", "splitLoop", MS, "new tensor not appended to the component", "C29",
  "(lists.set k (l' ++ [m + 1]))", "(lists.set k l')")
m("split-pop-one", "splitLoop", MS, "only one of the two tensors leaves the list of the component", "C29",
  "(lists.set k (l' ++ [m + 1]))", "(lists.set k (l.eraseIdx j ++ [m + 1]))")
m("split-pop-other", "splitLoop", MS, "the first two entries of the component's list are popped", "C29",
  "match popPair l i j with", "match popPair l 0 1 with")
m("split-path-swap", "splitLoop", MS, "the larger position comes first in the component's path", "C29",
  "(paths.set k (paths.getD k [] ++ [(i, j)]))", "(paths.set k (paths.getD k [] ++ [(j, i)]))")
m("split-keep-empty", "splitPathOnly", MS, "empty paths kept", "C29",
  ".ok (paths.filter (·.length ≠ 0))", ".ok paths")

CT = "Model/Contract.lean"
ND = "Model/NDArray.lean"
m("dot-newys-order", "dotPlan", CT, "second operand transposed with private indices before the shared ones", "C32",
  "newYs := ((H.union snh.iter).union yn.iter).iter", "newYs := ((H.union yn.iter).union snh.iter).iter")
m("dot-zs-swap", "dotPlan", CT, "result lists private indices of the right operand first", "C32",
  "zs := ((H.union xn.iter).union yn.iter).iter", "zs := ((H.union yn.iter).union xn.iter).iter")
m("dot-hyper-summed", "dotPlan", CT, "hyper-indices are summed as well", "C32",
  "let snh := sh.difference H.iter", "let snh := sh")
m("dot-hyper-unchecked", "dotPlan", CT, "hyper-indices only have to be in the first tensor", "C32",
  "if !(X.intersection Y.iter).issuperset H.iter then", "if !X.issuperset H.iter then")
m("dot-xs-private", "dotPlan", CT, "private indices of the left operand include hyper-indices", "C32",
  "let xn := X.difference sh.iter", "let xn := X.difference snh.iter")
m("contract-kept-ge1", "keptInds", CT, "hyper-indices kept one contraction too long", "C31",
  "fun x => 1 < hc x", "fun x => 0 < hc x")
m("contract-kept-gt2", "keptInds", CT, "hyper-indices summed one contraction too early", "C31",
  "fun x => 1 < hc x", "fun x => 2 < hc x")
m("contract-out-dropped", "keptInds", CT, "output indices shared by two tensors are summed", "C31",
  "∪ (out ∩ (xs.toFinset ∩ ys.toFinset))", "∪ ∅")
m("contract-count-kept", "lowerCount", CT, "hyper-count not lowered", "C31",
  "then hc x - 1 else hc x", "then hc x else hc x")
m("contract-count-two", "lowerCount", CT, "hyper-count lowered by two", "C31",
  "then hc x - 1 else hc x", "then hc x - 2 else hc x")
m("contract-prepend", "contractLoop", CT, "result put at the front of the list", "C31",
  "contractLoop enum out (lowerCount hc xs ys) (rest ++ [z]) path", "contractLoop enum out (lowerCount hc xs ys) (z :: rest) path",
  note="the value stays right but paths mean something else: the index-only mode disagrees")
m("contract-inds-swap", "contractIndsLoop", CT, "operands exchanged without arrays", "C31",
  "match tensordotInds xs ys (enum", "match tensordotInds ys xs (enum")
m("contract-no-equal-check", "contractLoop", CT, "x == y not rejected", "C31",
  "    if x = y then .error .valueError                                                 -- 975-976\n    else match popPair ts x y with",
  "    match popPair ts x y with")
m("contract-output-none", "contractOutput", CT, "default output has all indices of count at most two", "C31",
  "decide (hyperCount all x = 0)", "decide (hyperCount all x ≤ 1)")
m("contract-output-none-check", "contractOutput", CT, "hyper-indices accepted without output_inds", "C31",
  "decide (hyperCount all x > 1)", "decide (hyperCount all x > 2)",
  note="the value is still that of the network; see which theorem notices")
m("contract-dims-unchecked", "checkDims", CT, "shapes not compared", "C31",
  "as.length ≠ tsInds.length ∨ (as.zip tsInds).any fun p => decide (p.1.shape.map some ≠ p.2.map dims_)",
  "as.length ≠ tsInds.length")
m("nd-transpose-inverse", "NDArray.transpose", ND, "inverse permutation", "C32",
  "(unravel shape k).getD (axes.idxOf p) 0", "(unravel shape k).getD (axes.getD p 0) 0")
m("nd-matmul-transposed", "NDArray.matmul", ND, "first operand transposed", "C32",
  "a.get [idx.getD 0 0, idx.getD 1 0, l]", "a.get [idx.getD 0 0, l, idx.getD 1 0]")

RP = "Model/RandomPath.lean"
m("rp-swap-last", "swapLast", RP, "chosen index not moved to the end", "C27",
  "(a.set i (a.getD (a.length - 1) 0)).set (a.length - 1) (a.getD i 0)", "a.set i (a.getD (a.length - 1) 0)")
m("rp-lower-kept", "lowerR", RP, "finished indices stay in hyper_count", "C27",
  "if n - 1 = 0 then none else some (n - 1)", "some (n - 1)")
m("rp-lower-twice", "lowerR", RP, "hyper-count lowered by two", "C27",
  "if n - 1 = 0 then none else some (n - 1)", "if n - 2 = 0 then none else some (n - 2)")
m("rp-lower-none", "lowerR", RP, "hyper-count not lowered", "C27",
  "if n - 1 = 0 then none else some (n - 1)", "some n")
m("rp-zs-no-hyper", "rcLoop", RP, "shared hyper-indices dropped from the new tensor", "C27",
  "((xs \\ ys) ∪ (ys \\ xs)) ∪ shared.filter fun x => hc x ≠ none", "((xs \\ ys) ∪ (ys \\ xs))")
m("rp-zs-union", "rcLoop", RP, "new tensor keeps every index", "C27",
  "((xs \\ ys) ∪ (ys \\ xs)) ∪ shared.filter fun x => hc x ≠ none", "xs ∪ ys")
m("rp-no-filter", "rcLoop", RP, "contracted tensors may be chosen again", "C27",
  "(st.i2t index).filter (· ∉ contracted)", "(st.i2t index)")
m("rp-contracted-one", "rcLoop", RP, "second tensor not marked as contracted", "C27",
  "(contracted ∪ {tx, ty})", "(contracted ∪ {tx})")
m("rp-i2t-stale", "rcLoop", RP, "new tensor not recorded in index2tensors", "C27",
  "fun x => if x ∈ zs then st.i2t x ++ [tz] else st.i2t x", "st.i2t")
m("rp-pop-always", "rcLoop", RP, "index dropped after its first contraction", "C27",
  "hc⟩ av\n", "hc⟩ av.dropLast\n")
m("rp-never-pop", "rcLoop", RP, "exhausted index not dropped", "C27",
  "rcLoop g fuel r.2 st av.dropLast contracted path", "rcLoop g fuel r.2 st av contracted path")
m("rp-hc-off", "initR", RP, "hyper-count starts one too high", "C27",
  "else some (((i2t x).length : ℤ) - 1)⟩", "else some ((i2t x).length : ℤ)⟩")
m("rp-color-one", "colorInds", RP, "only the indices of the tensor are recoloured", "C27",
  "let ys := colors.biUnion c2i", "let ys := xs")
m("rp-color-lost", "colorInds", RP, "color2inds not updated", "C27",
  "(Function.update c2i c ys) rest", "c2i rest")
m("rp-bisect-right", "bisectLoop", RP, "bisect_right", "C27",
  "if a.getD mid 0 < x then", "if a.getD mid 0 ≤ x then")
m("rp-linear-front", "linearize", RP, "new tensor placed at the front", "C27",
  "linearize (rest ++ [z]) c", "linearize (z :: rest) c")
m("rp-order", "linearize", RP, "positions not sorted", "C27",
  "let px := min (bisectLeft loc x) (bisectLeft loc y)", "let px := (bisectLeft loc x)")
m("rp-group-all", "groupInds", RP, "every component gets all indices", "C27",
  "(List.range m).filter fun x => col x = c", "(List.range m)")

FU = "Model/Fuse.lean"
m("fuse-width-flip", "fuseLoop", FU, "width test inverted", "C30",
  "if maxW < w then fuseLoop", "if ¬ maxW < w then fuseLoop")
m("fuse-width-of-x", "fuseLoop", FU, "width of an operand instead of the result", "C30",
  "match width tz with", "match width tx with")
m("fuse-excl-one", "fuseLoop", FU, "only the first tensor is checked for excluded indices", "C30",
  "if ∃ x ∈ excl, x ∈ tx ∨ x ∈ ty then", "if ∃ x ∈ excl, x ∈ tx then")
m("fuse-excl-both", "fuseLoop", FU, "excluded index must be in both tensors", "C30",
  "if ∃ x ∈ excl, x ∈ tx ∨ x ∈ ty then", "if ∃ x ∈ excl, x ∈ tx ∧ x ∈ ty then")
m("fuse-no-output", "fusedInds", FU, "output indices are dropped", "C30",
  "∪ (out ∩ (X ∪ Y))", "∪ ∅")
m("fuse-hyper-ge", "fusedInds", FU, "last contraction of an index keeps it", "C30",
  "(X ∩ Y).filter (fun x => 1 < hc x)", "(X ∩ Y).filter (fun x => 0 < hc x)")
m("fuse-hyper-none", "fusedInds", FU, "hyper-indices are dropped", "C30",
  "(X ∩ Y).filter (fun x => 1 < hc x)", "∅")
m("fuse-no-readd", "fuseLoop", FU, "index not made available again", "C30",
  "if hc index = 0 then avail else avail ++ [index]", "avail")
m("fuse-readd-always", "fuseLoop", FU, "index always made available again", "C30",
  "if hc index = 0 then avail else avail ++ [index]", "avail ++ [index]",
  note="harmless: the index is skipped later; the bound on iterations still holds")
m("fuse-i2t-stale", "fuseLoop", FU, "index2tensors keeps the old tensors", "C30",
  "(S \\ {px, py}) ∪ {st.tIdx}", "S ∪ {st.tIdx}")
m("fuse-i2t-del", "fuseLoop", FU, "output indices deleted from index2tensors", "C30",
  ".filter fun x => ¬ 1 < st.hc x) \\ out", ".filter fun x => ¬ 1 < st.hc x)")
m("fuse-idx", "fuseLoop", FU, "number of the new tensor not advanced", "C30",
  "tIdx := st.tIdx + 1", "tIdx := st.tIdx")
m("fuse-hc-kept", "fuseLoop", FU, "hyper-count not lowered", "C30",
  "let hc := lowerCount st.hc tx ty", "let hc := st.hc")
m("fuse-norm-order", "fuseNorm", FU, "smaller label removed first", "C30",
  "let a := min px py\n    let b := max px py", "let a := max px py\n    let b := min px py")
m("fuse-norm-raw", "fuseNorm", FU, "labels returned instead of positions", "C30",
  ".ok ((pos1.idxOf a, pos.idxOf b) :: p)", ".ok ((a, b) :: p)")
m("fuse-avail-all", "fuseInit", FU, "excluded indices available", "C30",
  "x ∉ excl ∧ hyperCount tsInds.flatten x ≠ 0", "hyperCount tsInds.flatten x ≠ 0",
  note="harmless: a tensor with an excluded index is skipped in the loop")
m("fuse-avail-none", "fuseInit", FU, "only hyper-indices available", "C30",
  "x ∉ excl ∧ hyperCount tsInds.flatten x ≠ 0", "x ∉ excl ∧ hyperCount tsInds.flatten x > 1")

NM = "Model/Names.lean"
m("sym-offset", "getSymbol", NM, "offset of the middle range too small", "C35", "else chr (i + 140)", "else chr (i + 50)")
m("sym-high", "getSymbol", NM, "no jump over the surrogates", "C35", "chr (i + 2048)", "chr (i + 140)")
m("sym-low", "getSymbol", NM, "letters only up to 51", "C35", "if i < 52 then", "if i < 53 then")
m("sym-boundary", "getSymbol", NM, "jump starts later", "C35", "i ≥ 55296", "i ≥ 55297")
m("sym-order", "einsumSubscripts", NM, "output not numbered", "C35",
  "uniqueEverseen (tsInds.flatten ++ output)", "uniqueEverseen tsInds.flatten")
m("sym-sep", "einsumSubscripts", NM, "no comma between tensors", "C35", "| a :: b :: l => a ++ sep :: joinWith sep (b :: l)",
  "| a :: b :: l => a ++ joinWith sep (b :: l)")
m("sym-arrow", "einsumSubscripts", NM, "arrow without its head", "C35", "++ [45, 62] ++ output.map get)\n\n/-- tensor.py:145",
  "++ [62] ++ output.map get)\n\n/-- tensor.py:145")
m("pair-cyclic", "pairSubscripts", NM, "letters used cyclically", "C52", "asciiLetters[order.idxOf x]?", "asciiLetters[order.idxOf x % 52]?")
m("pair-noout", "pairSubscripts", NM, "output not numbered", "C52", "uniqueEverseen (xs ++ ys ++ zs)", "uniqueEverseen (xs ++ ys)")
m("pair-swap", "pairSubscripts", NM, "tensors in wrong order", "C52", "(a ++ [44] ++ b ++", "(b ++ [44] ++ a ++")
m("read-front", "pushName", NM, "index added at the front", "C34", "(e.1, e.2 ++ [i])", "(e.1, i :: e.2)")
m("read-all", "pushName", NM, "index added to every tensor", "C34", "if e.1 = t then (e.1, e.2 ++ [i]) else e", "(e.1, e.2 ++ [i])")
m("read-token-kept", "readInds", NM, "output token stays a tensor", "C34", "popName o.2 sparseTok", "popName r.2 sparseTok")
m("read-swap", "readInds", NM, "output and sparse indices swapped", "C34", "o.1.toFinset, s.1.toFinset", "s.1.toFinset, o.1.toFinset")
m("read-nocheck", "readInds", NM, "equal tokens accepted", "C34", "if outTok = sparseTok then .error .valueError", "if False then .error .valueError")
m("svd-nocheck", "svdName", NM, "given name not checked", "C36", "| some a => if a ∈ inds then some (.error .valueError) else some (.ok a)",
  "| some a => some (.ok a)")
m("svd-noloop", "svdDraw", NM, "first name always used", "C36", "if draw k ∈ inds then svdDraw draw inds fuel (k + 1) else some (draw k)", "some (draw k)")
m("svd-reseeded", "svdName", NM, "seeded generator advances (a repaired program: only the violation fails)", "C36",
  "if seeded then fun _ => draw 0 else draw", "draw")

DC = "Model/Decompose.lean"
m("dec-offdiag", "isDiagonal", DC, "diagonal entries must vanish instead", "C33", "if idx.getD 0 0 = idx.getD 1 0 then a.get", "if idx.getD 0 0 ≠ idx.getD 1 0 then a.get")
m("dec-square", "isDiagonal", DC, "axes of different length allowed", "C33", "if n ≠ m then .ok false", "if False then .ok false")
m("dec-drop", "decomposeTensor", DC, "wrong index removed", "C33", "else decomposeTensor fuel c (y :: rest) H'", "else decomposeTensor fuel c (x :: rest) H'")
m("dec-drop2", "decomposeTensor", DC, "merged into the removed index", "C33", "dpop (dset H y ((dget H x).getD ∅ ∪ (dget H y).getD ∅ ∪ {x})) x",
  "dset H x ((dget H x).getD ∅ ∪ (dget H y).getD ∅ ∪ {x})")
m("dec-forget", "decomposeTensor", DC, "indices merged before are forgotten", "C33", "(dget H x).getD ∅ ∪ (dget H y).getD ∅ ∪ {x}", "(dget H y).getD ∅ ∪ {x}")
m("dec-forget2", "decomposeTensor", DC, "removed index not recorded", "C33", "(dget H x).getD ∅ ∪ (dget H y).getD ∅ ∪ {x}", "(dget H x).getD ∅ ∪ (dget H y).getD ∅")
m("dec-nopop", "decomposeTensor", DC, "entry of the removed index kept (harmless duplicate)", "C33",
  "dpop (dset H y ((dget H x).getD ∅ ∪ (dget H y).getD ∅ ∪ {x})) x", "dset H y ((dget H x).getD ∅ ∪ (dget H y).getD ∅ ∪ {x})")
m("dec-const", "decomposeTensor", DC, "only two entries compared", "C33", "∀ k < c.shape.prod, c.data k = c.data 0", "c.data 1 = c.data 0")
m("dec-const-one", "decomposeTensor", DC, "scalar 1 instead of the common value", "C33", "⟨[], fun _ => c.data 0⟩", "⟨[], fun _ => 1⟩")
m("dec-stack", "stackDiagonal", DC, "first row instead of the diagonal", "C33", "a.get (idx.getD 0 0 :: idx)", "a.get (0 :: idx)")
m("dec-pad", "padAxes", DC, "pair at the end", "C33", "[i, j] ++ (List.range n).filter fun x => x ∉ [i, j]", "(List.range n).filter (fun x => x ∉ [i, j]) ++ [i, j]")
m("dec-pairs", "axisPairs", DC, "pairs include equal axes", "C33", "filter (i < ·)", "filter (i ≤ ·)")
m("dec-nodup", "decomposeTensor", DC, "repeated indices accepted", "C33", "else if ¬ inds.Nodup then some (.error .valueError)", "else if False then some (.error .valueError)")
m("col-nomerge", "colourLoop", DC, "colours of the group not updated", "C33", "colourLoop rest (dupdate col (l.map fun y => (y, c))) cls", "colourLoop rest col cls")
m("col-group-only", "colourLoop", DC, "only the indices of the group recoloured, not their classes", "C33", "(dupdate col (l.map fun y => (y, c)))",
  "(dupdate col (xs.toList.map fun y => (y, c)))", note="does not build if toList is noncomputable")
m("col-nokey", "colourLoop", DC, "key not part of the group", "C33", "let g := insert x xs", "let g := xs")
m("col-max", "sortedNats", DC, "largest colour first", "C33", "(List.range (s.sup id + 1)).filter (· ∈ s)", "((List.range (s.sup id + 1)).filter (· ∈ s)).reverse")
m("net-norename", "decomposeNetwork", DC, "indices of the tensors not renamed", "C33",
  "match rs.mapM fun r => r.1.2.mapM (dget hmap) with", "match rs.mapM fun r => r.1.2.mapM some with")
m("net-last", "decomposeNetwork", DC, "last index represents its class", "C33", "(e.2.head?.map fun r => (x, r)).toList)", "(e.2.getLast?.map fun r => (x, r)).toList)")

CI = "Model/Circuit.lean"
m("com-noshared", "commute", CI, "gates that share qubits commute", "C37", "if shared = [] then .ok true ", "if shared ≠ [] then .ok true ")
m("com-order", "commute", CI, "the same product is computed twice", "C37", "commuteContract shared all b B.2 a A.2 with", "commuteContract shared all a A.2 b B.2 with")
m("com-tag", "commuteContract", CI, "output legs of the second gate are summed", "C37",
  "let xb := (qb.map fun q => (q, if q ∈ shared then Tag.shared else Tag.i)) ++ qb.map fun q => (q, Tag.f)",
  "let xb := (qb.map fun q => (q, Tag.f)) ++ qb.map fun q => (q, if q ∈ shared then Tag.shared else Tag.i)")
m("com-xab", "commuteContract", CI, "legs in another order (for both products; harmless)", "C37", "let xab := (all.map fun q => (q, Tag.i)) ++ all.map fun q => (q, Tag.f)",
  "let xab := (all.map fun q => (q, Tag.f)) ++ all.map fun q => (q, Tag.i)")
m("same-order", "same", CI, "columns not transposed", "C37", "let order := order ++ order.map (· + A.2.length)", "let order := order ++ (List.range A.2.length).map (· + A.2.length)")
m("same-inverse", "same", CI, "inverse permutation", "C37", "let order := A.2.map fun q => B.2.idxOf q", "let order := B.2.map fun q => A.2.idxOf q")
m("same-nomask", "same", CI, "positions of zeros not compared", "C37", "if ∃ k < n, ¬ (A.1.data k ≠ 0 ↔ b.data k ≠ 0) then .ok false", "if False then .ok false")
m("same-first", "same", CI, "ratios not compared", "C37", "| w :: _ => .ok (decide (∀ x ∈ W, x = w))", "| w :: _ => .ok (decide (w ≠ 0))")
m("same-qubits", "same", CI, "qubits not compared", "C37", "else if A.2.length ≠ B.2.length ∨ ∃ q ∈ B.2, q ∉ A.2 then .ok false", "else if A.2.length ≠ B.2.length then .ok false")
m("adj-noconj", "gateAdjoint", CI, "transpose without conjugation", "C37", "fun k => star (g.1.data k)", "fun k => g.1.data k")
m("adj-notrans", "gateAdjoint", CI, "conjugate without transposition", "C37", "(List.range g.1.ndim).reverse", "(List.range g.1.ndim)")
m("find-nocommute", "findCancel", CI, "the search goes on past gates that do not commute", "C37", "      | .ok false => .ok none\n", "      | .ok false => findCancel useMatrix g adj rest (i + 1)\n")
m("find-stop", "findCancel", CI, "only the last gate is looked at", "C37", "      | .ok true => findCancel useMatrix g adj rest (i + 1)", "      | .ok true => .ok none")
m("pass-index", "simplifyPass", CI, "position counted from the start", "C37", "all.eraseIdx (all.length - pos - 1)", "all.eraseIdx pos")
m("pass-keep", "simplifyPass", CI, "the new gate is kept", "C37", "simplifyPass useMatrix rest (all.eraseIdx (all.length - pos - 1)) true", "simplifyPass useMatrix rest (all.eraseIdx (all.length - pos - 1) ++ [g]) true")
m("pass-nochange", "simplifyPass", CI, "changes never reported", "C37", "simplifyPass useMatrix rest (all.eraseIdx (all.length - pos - 1)) true", "simplifyPass useMatrix rest (all.eraseIdx (all.length - pos - 1)) changes")
m("pass-front", "simplifyPass", CI, "gates prepended", "C37", "simplifyPass useMatrix rest (all ++ [g]) changes", "simplifyPass useMatrix rest (g :: all) changes")
m("valid-dup", "isValidGate", CI, "repeated qubits accepted", "C37", " && decide g.2.Nodup", " && decide (g.2.Nodup ∨ True)")

CL = "Model/CircuitLoad.lean"
m("load-tok-minus", "validToken", CL, "token - has the sign of +", "C38", "if k = 0 then r else -r⟩", "if k = 0 then r else r⟩")
m("load-tok-01", "validToken", CL, "tokens 0 and 1 exchanged", "C38", "if s = \"0\" then some ⟨[2], fun k => if k = 0 then 1 else 0⟩", "if s = \"0\" then some ⟨[2], fun k => if k = 0 then 0 else 1⟩")
m("load-final-conj", "rawNetwork", CL, "final state not conjugated", "C38", "fun k => star (e.2.data k))", "fun k => e.2.data k)")
m("load-norm-skip", "getState", CL, "states are not checked for their norm", "C38",
  "if ∀ e ∈ s, e.2.shape = [2] ∧ star (e.2.data 0) * e.2.data 0 + star (e.2.data 1) * e.2.data 1 = 1 then .ok s", "if ∀ e ∈ s, e.2.shape = [2] then .ok s")
m("load-filter-states", "getState", CL, "states of other qubits kept", "C38", "(l.filter fun e => e.1 ∈ qubits).map", "l.map")
m("load-inds-swapped", "buildLoop", CL, "input and output indices of a gate exchanged", "C38",
  "(g.2.map fun q => (q, c q + 1)) ++ g.2.map fun q => (q, c q)", "(g.2.map fun q => (q, c q)) ++ g.2.map fun q => (q, c q + 1)")
m("load-count-stuck", "buildLoop", CL, "qubit_map updated for the first qubit only", "C38", "c q + g.2.count q", "c q + (g.2.take 1).count q")
m("load-relabel-first", "relabel", CL, "the last index is not renamed to f", "C38", "else if x.2 = c x.1 then (x.1, .f) else", "else")
m("load-open-all", "openQubits", CL, "closed qubits stay open", "C38", ".filter (· ∉ closed)", ".filter (fun _ => true)")
m("load-missing", "load", CL, "qubits whose gates cancelled are forgotten", "C38", "all ++ (qubits.filter fun q => q ∉ all.flatMap Prod.snd).map eyeGate", "all")
m("load-eye", "eyeGate", CL, "zero matrix instead of the identity", "C38", "if k = 0 ∨ k = 3 then 1 else 0⟩, [q])", "0⟩, [q])")
m("load-delta", "deltaArray", CL, "delta of ones", "C38", "if k = 0 ∨ k = 2 ^ n - 1 then 1 else 0", "1")
m("load-no-delta", "decomposeOpen", CL, "deltas of open indices left out", "C38", "arrs.zip new ++ ds.map fun xs => (deltaArray xs.length, xs)", "arrs.zip new")
m("load-no-remap", "decomposeOpen", CL, "indices not renamed to the open ones", "C38", "xs.map fun x => (dget h.2 x).getD x", "xs")
m("load-delta-inds", "deltaInds", CL, "deltas without their first index", "C38", "y :: (l.filter fun e => e.2 = y).map Prod.fst", "(l.filter fun e => e.2 = y).map Prod.fst")
m("load-fuse-noout", "fuseNetwork", CL, "output indices not given to fuse", "C38", "(.int 2) maxW (some op) []", "(.int 2) maxW none []")
m("load-contract-noout", "fuseNetwork", CL, "output indices not given to contract", "C38", "contract enum path (ts.map Prod.snd) (some op)", "contract enum path (ts.map Prod.snd) none")

SA = "Model/Sampling.lean"
m("samp-unit", "isClassical", SA, "moduli not tested", "C40", ".ok (nz.all fun p => sq (m.get [p.1, p.2]) = 1)", ".ok true")
m("samp-rows", "isClassical", SA, "columns not tested", "C40", "if (nz.map Prod.fst).insertionSort (· ≤ ·) = List.range r ∧ (nz.map Prod.snd).insertionSort (· ≤ ·) = List.range r then", "if (nz.map Prod.fst).insertionSort (· ≤ ·) = List.range r then")
m("samp-cols", "isClassical", SA, "rows not tested", "C40", "if (nz.map Prod.fst).insertionSort (· ≤ ·) = List.range r ∧ (nz.map Prod.snd).insertionSort (· ≤ ·) = List.range r then", "if (nz.map Prod.snd).insertionSort (· ≤ ·) = List.range r then")
m("samp-prefix", "prepareGate", SA, "network of the gates before the gate", "C39", "circuit.take (n + 1)", "circuit.take n")
m("samp-full", "prepareGate", SA, "network of the whole circuit", "C39", "circuit.take (n + 1)", "circuit")
m("samp-init", "prepareGate", SA, "initial state + instead of 0", "C39", "(.str \"0\") .none with", "(.str \"+\") .none with")
m("samp-allowed", "allowed", SA, "two-qubit gates are not tested", "C39", "if g.2.length = 1 then allowed sq rest", "if g.2.length ≤ 2 then allowed sq rest")
m("samp-order", "prepare", SA, "qubit order not compared", "C39", "if order.all fun o => o.toFinset = qubits then", "if order.all fun o => o.toFinset = qubits ∨ True then")
m("samp-bits", "bitList", SA, "bits in the other order", "C39", "k / 2 ^ (n - 1 - i) % 2", "k / 2 ^ i % 2")
m("samp-transpose", "stepClassical", SA, "inverse permutation", "C39", "m.get [i, k] % 2 ≠ 0", "m.get [k, i] % 2 ≠ 0")
m("samp-vec", "bitVec", SA, "bit vectors exchanged", "C39", "if b ≠ 0 then (if k = 0 then 0 else 1) else if k = 0 then 1 else 0", "if b ≠ 0 then (if k = 0 then 1 else 0) else if k = 0 then 0 else 1")
m("samp-noflip", "stepProbs", SA, "vector not flipped for the second amplitude", "C39", "(bitVec (if bits.getD l 0 ≠ 0 then 0 else 1))", "(bitVec (if bits.getD l 0 ≠ 0 then 1 else 0))")
m("samp-swap-p", "runSteps", SA, "probability of staying", "C39", "flip (p1 / (p0 + p1))", "flip (p0 / (p0 + p1))")
m("samp-unnorm", "runSteps", SA, "probability not normalised", "C39", "flip (p1 / (p0 + p1))", "flip p1")
m("samp-amp", "stepProbs", SA, "second amplitude used twice", "C39", ".ok (l, sq a0, sq a1)", ".ok (l, sq a1, sq a1)")
m("samp-le", "rngFlip", SA, "random() <= p", "C39", "decide ((random s).1 < p)", "decide ((random s).1 ≤ p)")
m("samp-state", "sampleLoop", SA, "generator not advanced between samples", "C39", "| (.ok b, s) => sampleLoop random sq enum qubits steps n s (", "| (.ok b, _) => sampleLoop random sq enum qubits steps n s (")
m("samp-count", "sampleLoop", SA, "counts start at 0", "C39", "((dget d b).getD 0 + 1)", "((dget d b).getD (0 - 1) + 0)")
m("samp-normalize", "sampleFrom", SA, "fractions of the number of different bitstrings", "C39", "(e.2 : R) / (nSamples : R)", "(e.2 : R) / (d.length : R)")
m("samp-sort", "sampleFrom", SA, "ascending order", "C39", "fun a b => b.2 ≤ a.2", "fun a b => a.2 ≤ b.2")
m("samp-qorder", "sampleFrom", SA, "qubit_order ignored", "C39", "order.getD (enumQ qset)", "enumQ qset")

BU = "Model/Buffer.lean"
m("buf-neg", "Buffer.offset", BU, "negative offsets refused", "C53", "else if pos * b.slot + b.bytes.length < 0 then .error .structError", "else if pos * b.slot < 0 then .error .structError")
m("buf-past", "Buffer.offset", BU, "off by one at the end", "C53", "if (b.len : Int) ≤ pos then .error .indexError", "if (b.len : Int) < pos then .error .indexError")
m("buf-nocheck", "Buffer.offset", BU, "positions past the end not refused by Buffer", "C53", "if (b.len : Int) ≤ pos then .error .indexError", "if False then .error .indexError")
m("buf-unscaled", "Buffer.offset", BU, "position used as byte offset", "C53", "else if 0 ≤ pos * b.slot then .ok (pos * b.slot).toNat", "else if 0 ≤ pos * b.slot then .ok pos.toNat")
m("buf-write", "writeAt", BU, "the bytes behind the slot are shifted", "C53", "bs.take off ++ ys ++ bs.drop (off + ys.length)", "bs.take off ++ ys ++ bs.drop off")
m("buf-zero", "mkBuffer", BU, "the sequence is not stored", "C53", "| .ok ys => .ok ⟨c, writeAt bs 0 ys⟩", "| .ok _ => .ok ⟨c, bs⟩")
m("buf-len", "Buffer.len", BU, "length in bytes", "C53", "b.bytes.length / b.slot", "b.bytes.length")
m("buf-empty", "sharedMemory", BU, "empty blocks allowed", "C53", "if size ≤ 0 then .error .valueError", "if size < 0 then .error .valueError")
m("buf-dtype", "mkBuffer", BU, "longer formats accepted", "C53", "  | [c] =>\n    match calcsize c with", "  | c :: _ =>\n    match calcsize c with")
m("buf-x", "packAll", BU, "pad byte takes a value", "C53", "if c = 'x' then .error .structError", "if c = 'y' then .error .structError")
m("buf-iter", "Buffer.toList", BU, "iteration stops early", "C53", "(List.range b.len).mapM", "(List.range (b.len - 1)).mapM")

PA = "Model/Parallel.lean"
m("par-order", "collect", PA, "results in reverse order", "C41", "(w.tasks.mapM taskResult).map .ok", "(w.tasks.reverse.mapM taskResult).map .ok")
m("par-noerr", "collect", PA, "exceptions ignored", "C41", "| some e => some (.error e)", "| some _ => (w.tasks.mapM taskResult).map .ok")
m("par-lasterr", "workStep", PA, "last failure reported (harmless)", "C41", "failed := w.failed.or (some e)", "failed := (some e : Option ε).or w.failed")
m("par-idx", "workStep", PA, "the core is started with a wrong idx", "C41", "core.start xs d i)) w.mem", "core.start xs d (i + 1))) w.mem")
m("par-kwargs", "workStep", PA, "keyword arguments dropped", "C41", "core.start xs d i", "core.start xs [] i")
m("par-stopall", "tickStep", PA, "only the first stop flag is set (harmless)", "C41", "w.mem.stop.set k true", "w.mem.stop.set 0 true")
m("par-unstop", "tickStep", PA, "stop flags are cleared", "C41", "w.mem.stop.set k true", "w.mem.stop.set k (!(w.mem.stop.getD k false))")
m("par-status", "tickStep", PA, "the timer clears the status", "C41", "mem := { w.mem with stop := w.mem.stop.set k true }", "mem := { w.mem with stop := w.mem.stop.set k true, status := [] }")
m("par-longest", "zipRows", PA, "first list padded", "C41", "List.zipWith (· :: ·) xs (zipRows (ys :: rest))", "List.zipWith (· :: ·) (xs ++ xs) (zipRows (ys :: rest))")
m("par-kwonly", "parallelArgs", PA, "keyword arguments ignored with positional ones", "C41", "else .ok ((zipRows args).zip ks)", "else .ok ((zipRows args).map fun xs => (xs, []))")
m("par-noargs", "parallelArgs", PA, "no arguments accepted", "C41", "if args = [] ∧ kwargs = [] then .error .valueError", "if False then .error .valueError")
m("par-seq", "mayRun", PA, "sequential branch runs in any order", "C41", "!seq || (w.tasks.take i).all isFinished", "true")
m("par-seq-next", "mayRun", PA, "sequential branch skips the predecessor", "C41", "(w.tasks.take i).all isFinished", "(w.tasks.take (i - 1)).all isFinished")
m("par-stuck", "mayRun", PA, "worker waits for itself", "C41", "(w.tasks.take i).all isFinished", "(w.tasks.take (i + 1)).all isFinished")
m("par-twice", "workStep", PA, "the call is started again", "C41", "| some (.returned r), _ =>\n    { w.put i (.finished r) w.mem with", "| some (.returned _), _ =>\n    { w.put i (.pending) w.mem with")
m("par-nounlink", "parallel", PA, "buffers of the caller not unlinked", "C42", "(sys.release (ids.take 3 ++ dict.map Prod.snd), some (.ok rs))", "(sys.release (ids.take 3), some (.ok rs))")
m("par-nocancel", "Sys.release", PA, "timer not cancelled", "C42", "    timers := sys.timers - 1 }", "    timers := sys.timers }")
m("par-finally", "parallel", PA, "resources released on exceptions as well", "C42", "| some (.error e) => (sys.abandon w.timer, some (.error (.task e)))",
  "| some (.error e) => (sys.release (ids.take 3 ++ dict.map Prod.snd), some (.error (.task e)))")
m("par-init-stop", "World.init", PA, "stop flags set from the start", "C41", "stop := List.replicate n false", "stop := List.replicate n true")

TN = "Model/TensorNetwork.lean"
m("tn-hyper", "defaultOutput", TN, "hyper-indices from two occurrences on", "C45", "1 < (all.count x : Int) - 1", "0 < (all.count x : Int) - 1")
m("tn-hyper3", "defaultOutput", TN, "hyper-indices from four occurrences on", "C45", "1 < (all.count x : Int) - 1", "2 < (all.count x : Int) - 1")
m("tn-closed", "defaultOutput", TN, "contracted indices are open", "C45", "(all.count x : Int) - 1 = 0", "(all.count x : Int) - 1 = 1")
m("tn-dims", "mkNetwork", TN, "dimensions of different tensors not compared", "C45", "if ∃ t ∈ ts, t.dims.map some ≠ t.inds.map (dget dims) then", "if ∃ t ∈ ts, t.dims.length ≠ (t.inds.map (dget dims)).length then")
m("tn-output", "mkNetwork", TN, "output indices not checked", "C45", "if ¬ out ⊆ all.toFinset then .error .valueError", "if ¬ out ⊆ out ∪ all.toFinset then .error .valueError")
m("tn-sparse", "mkNetwork", TN, "sparse indices not checked", "C45", "else if ¬ sp ⊆ all.toFinset then .error .valueError", "else if ¬ sp ⊆ sp then .error .valueError")
m("tn-sparse-out", "mkNetwork", TN, "sparse indices must be output indices", "C45", "else if ¬ sp ⊆ all.toFinset then .error .valueError", "else if ¬ sp ⊆ out then .error .valueError")
m("tn-zero", "posInt", TN, "dimension 0 accepted", "C45", "if q.isInt && decide (1 ≤ q.num) then some q.num.toNat else none", "if q.isInt && decide (0 ≤ q.num) then some q.num.toNat else none")
m("tn-frac", "posInt", TN, "fractions truncated", "C45", "if q.isInt && decide (1 ≤ q.num) then some q.num.toNat else none", "if decide (1 ≤ q.num) then some q.num.toNat else none")
m("tn-scalar", "convertDims", TN, "scalar dimension not checked (harmless for tensors with indices)", "C45", "    if q.isInt && decide (1 ≤ q.num) then .ok (List.replicate n (.num q))\n    else .error .valueError", "    .ok (List.replicate n (.num q))")
m("tn-shape", "checkTensor", TN, "array shape not compared", "C45", "if s ≠ ds then .error .valueError else", "if s.length ≠ ds.length then .error .valueError else")
m("tn-len", "checkTensor", TN, "number of dimensions not compared", "C45", "if ds.length ≠ inds.length then .error .valueError", "if ds.length < inds.length then .error .valueError")
m("tn-skip", "mkNetwork", TN, "members that are no tensors are skipped", "C45", "  match tensors.mapM id with\n  | none => .error .valueError\n  | some ts =>", "  match some (tensors.filterMap id) with\n  | none => .error .valueError\n  | some ts =>")

FF = "Model/FixedFloat.lean"
m("ff-sign", "mpfrCmp", FF, "sign ignored for negative numbers", "C47", "else if m < n then - sgn s", "else if m < n then - sgn false")
m("ff-zero", "mpfrCmp", FF, "-0 less than 0", "C47", "if m = 0 then if n = 0 then 0 else - sgn t", "if m = 0 then if n = 0 then (if s = t then 0 else sgn s) else - sgn t")
m("ff-inf", "mpfrCmp", FF, "infinities differ", "C47", "| .inf s, .inf t => if s = t then 0 else sgn s", "| .inf s, .inf _ => sgn s")
m("ff-le", "Mpf.le", FF, "<= is <", "C47", "mpfrCmp x y ≤ 0", "mpfrCmp x y < 0")
m("ff-ge", "Mpf.ge", FF, ">= with the operands exchanged", "C47", "def Mpf.ge (x y : Mpf) : Bool := mpfrCmp x y ≥ 0", "def Mpf.ge (x y : Mpf) : Bool := mpfrCmp y x ≥ 0")
m("ff-isinf-fixed", "pyIsinf", FF, "isinf repaired", "C47", "def pyIsinf (x : Mpf) : Bool := x.isnan", "def pyIsinf (x : Mpf) : Bool := x.isinf")
m("ff-signbit-fixed", "pySignbit", FF, "signbit repaired", "C47", "def pySignbit (x : Mpf) : Bool := x.isnan", "def pySignbit (x : Mpf) : Bool := x.signbit")
m("ff-nancmp", "mpfrCmp", FF, "NaN is less than everything", "C47", "| .nan _, _ => 0", "| .nan _, _ => -1")
m("fmt-align", "isAlign", FF, "= not accepted", "C54", "c = '^' || c = '='", "c = '^' || c = '^'")
m("fmt-fill-nl", "takeAlign", FF, "newline as fill", "C54", "if isAlign b && !isNl a then", "if isAlign b then")
m("fmt-fill-first", "takeAlign", FF, "alignment tried before the fill", "C54", "if isAlign b && !isNl a then ((some a, some b), cs)\n    else if isAlign a then ((none, some a), b :: cs)",
  "if isAlign a then ((none, some a), b :: cs)\n    else if isAlign b && !isNl a then ((some a, some b), cs)")
m("fmt-prec", "takePrec", FF, "point without digits", "C54", "| (none, _) => (none, '.' :: cs)", "| (none, _) => (some ['.'], cs)")
m("fmt-type", "isType", FF, "type d accepted", "C54", "c = 'G' || c = '%'", "c = 'G' || c = '%' || c = 'd'")
m("fmt-rest", "parseSpec", FF, "regex_search instead of regex_match", "C54", "  | _ => none\n\n/-- `std::stoi`", "  | _ => some ⟨fa.1, fa.2, sign, alt.isSome, zero.isSome, width, th.isSome, prec, type⟩\n\n/-- `std::stoi`")
m("fmt-order", "parseSpec", FF, "comma before the width", "C54", "  let (width, cs) := takeDigits cs\n  let (th, cs) := takeOne (· = ',') cs", "  let (th, cs) := takeOne (· = ',') cs\n  let (width, cs) := takeDigits cs")
m("fmt-center", "padText", FF, "larger half on the left", "C54", "List.replicate (padding / 2) fill ++ num ++\n        List.replicate (padding - padding / 2) fill", "List.replicate (padding - padding / 2) fill ++ num ++\n        List.replicate (padding / 2) fill")
m("fmt-left", "padText", FF, "alignments exchanged", "C54", "if align = '<' then num", "if align = '>' then num")
m("fmt-pad1", "padText", FF, "padding one too short", "C54", "let padding := width - num.length", "let padding := width - num.length - 1")
m("fmt-default", "FmtSpec.alignChar", FF, "left alignment by default", "C54", "s.align.getD '>'", "s.align.getD '<'")
m("fmt-fill", "fixedFormat", FF, "fill ignored", "C54", "(s.fill.getD ' ')", "((none : Option Char).getD ' ')")
m("fmt-percent", "fixedFormat", FF, "percent sign left out", "C54", "print s.core true ++ ['%']", "print s.core true")
m("fmt-hundred", "fixedFormat", FF, "percentage not multiplied", "C54", "print s.core true ++ ['%']", "print s.core false ++ ['%']")
m("fmt-range", "fixedFormat", FF, "large widths wrap", "C54", "if 2 ^ 31 ≤ digitsVal (s.width.getD []) then .error .outOfRange", "if 2 ^ 32 ≤ digitsVal (s.width.getD []) then .error .outOfRange")
m("fmt-stoi", "digitsVal", FF, "octal widths", "C54", "10 * n + (c.toNat - 48)", "8 * n + (c.toNat - 48)")
m("fmt-core", "FmtSpec.core", FF, "sign flag not passed on", "C54", "['%'] ++ s.sign.toList ++", "['%'] ++")

CC = "Model/Components.lean"
m("cc-noinds", "mergedInds", CC, "indices of the merged components dropped", "C49", "(fun s c => s ∪ (dget st.color2index c).getD ∅) inds.toFinset", "(fun s _ => s) inds.toFinset")
m("cc-first", "tensorColors", CC, "only the first index is looked up", "C49", "uniqueEverseen (inds.filterMap (dget st.index2color))", "uniqueEverseen ((inds.take 1).filterMap (dget st.index2color))")
m("cc-max", "newColor", CC, "max instead of min (harmless)", "C49", "| c :: cs => cs.foldl min c", "| c :: cs => cs.foldl max c")
m("cc-reuse", "newColor", CC, "largest color reused", "C49", "fun e => e.1 + 1", "fun e => e.1")
m("cc-count", "newColor", CC, "number of colors as new color", "C49", "| [] => ((st.color2index.map fun e => e.1 + 1).foldl max 0)", "| [] => st.color2index.length")
m("cc-nopop", "colorStep", CC, "merged colors not removed", "C49", "dset ((tensorColors st inds).foldl dpop st.color2index) color all", "dset st.color2index color all")
m("cc-own", "colorStep", CC, "merged indices not recolored", "C49", "dupdate st.index2color ((enum all).map fun x => (x, color))", "dupdate st.index2color ((enum inds.toFinset).map fun x => (x, color))")
m("cc-last", "groupFrom", CC, "only the last position is kept", "C49", "dset d c ((dget d c).getD [] ++ [k])", "dset d c [k]")
m("cc-prepend", "groupFrom", CC, "positions in descending order", "C49", "dset d c ((dget d c).getD [] ++ [k])", "dset d c (k :: (dget d c).getD [])")
m("cc-one", "groupFrom", CC, "positions from 1", "C49", "((groupFrom 0 [] cc).map Prod.snd)", "((groupFrom 1 [] cc).map Prod.snd)")
m("cc-nofilter", "connectedComponents", CC, "empty tensors not dropped", "C49", "let us := ts.filter fun inds => inds.length ≠ 0", "let us := ts.filter fun inds => inds.length ≠ 0 ∨ True")
m("cc-empty", "connectedComponents", CC, "empty network not special", "C49", "if us.length = 0 then .ok []\n  else", "if us.length = 0 then .ok [[]]\n  else")
m("cc-assert", "colorsChecked", CC, "indices counted once", "C49", "l.count x = 2", "l.count x = 1")

AN = "Model/Anneal.lean"
m("sa-range-up", "numericRange", AN, "length rounded down", "C44", "(if d / st = (d / st).floor then 0 else 1)", "0")
m("sa-range-incl", "numericRange", AN, "end included", "C44", "(d / st).floor.toNat + (if d / st = (d / st).floor then 0 else 1)", "(d / st).floor.toNat + 1")
m("sa-range-rev", "numericRange", AN, "temperatures in the wrong direction", "C44", "fun k : ℕ => start + k * step", "fun k : ℕ => start - k * step")
m("sa-steps-zero", "checkSteps", AN, "n_steps = 0 accepted", "C44", "(q.floor : ℚ) ≠ q ∨ q ≤ 0", "(q.floor : ℚ) ≠ q ∨ q < 0")
m("sa-steps-frac", "checkSteps", AN, "fractional n_steps accepted", "C44", "if (q.floor : ℚ) ≠ q ∨ q ≤ 0 then", "if q ≤ 0 then")
m("sa-betas-step", "expandBetas", AN, "step not divided", "C44", "numericRange b0 b1 ((b1 - b0) / n)", "numericRange b0 b1 (b1 - b0)")
m("sa-betas-eq", "expandBetas", AN, "equal temperatures accepted", "C44", "if b0 = b1 then .error .valueError else .ok", "if b0 = b1 then .ok ([], true) else .ok")
m("sa-cm-zero", "PyCM.make", AN, "n_projs = 0 accepted", "C44", "decide (n < 1)", "decide (n < 0)")
m("sa-cm-none", "PyCM.make", AN, "sparse indices without n_projs accepted", "C44", "else if sparse.getD ∅ ≠ ∅ ∧ nProjs = none then .error .valueError\n", "")
m("sa-cm-sub", "PyCM.core", AN, "sparse indices missing from the tree ignored", "C55", "  else if ¬ sp ⊆ order.toFinset then .error .valueError\n  else\n    match sparseModel (sp", "  else\n    match sparseModel ((sp ∩ order.toFinset)")
m("sa-cm-nosparse", "PyCM.core", AN, "sparse indices ignored", "C43", "if sp = ∅ then .ok (simpleModel dims)", "if True then .ok (simpleModel dims)")
m("sa-cm-projs", "PyCM.core", AN, "one projection", "C43", "match sparseModel (sp.image order.idxOf) (cm.nProjs.getD 0).toNat dims with", "match sparseModel (sp.image order.idxOf) 1 dims with")
m("sa-wm-nosparse", "PyCM.widthCore", AN, "width without sparse indices", "C43", "  if sp = ∅ then\n    match simpleWidthModel", "  if True then\n    match simpleWidthModel")
m("sa-wm-max", "PyCM.widthCore", AN, "maximum width doubled", "C43", "simpleWidthModel log2 dims maxWidth with", "simpleWidthModel log2 dims (maxWidth + maxWidth) with")
m("sa-step-off", "annealStep", AN, "one update too many", "C44", "if nSteps = some n ∨", "if nSteps.map (· + 1) = some n ∨")
m("sa-step-stop", "annealStep", AN, "stop flag ignored", "C44", "if nSteps = some n ∨ m.stop.getD i false = true then", "if nSteps = some n then")
m("sa-step-stopall", "annealStep", AN, "stop flag of the first run used by all", "C44", "m.stop.getD i false = true", "m.stop.getD 0 false = true")
m("sa-step-same", "annealStep", AN, "always the first temperature", "C44", ".next (.loop seed todo done (n + 1) bs o')", ".next (.loop seed todo done (n + 1) (b :: bs) o')")
m("sa-step-n", "annealStep", AN, "counter not increased", "C44", ".next (.loop seed todo done (n + 1) bs o')", ".next (.loop seed todo done n bs o')")
m("sa-step-drop", "annealStep", AN, "update thrown away", "C44", ".next (.loop seed todo done (n + 1) bs o')", ".next (.loop seed todo done (n + 1) bs o)")
m("sa-step-empty", "annealStep", AN, "empty paths skipped", "C43", ".next (.comps seed todo (done ++ [A.trivial])) m", ".next (.comps seed todo done) m")
m("sa-step-unsized", "annealStep", AN, "iterables without length allowed (repaired)", "C55", "else .raise .typeError m", "else .next (.loop seed todo done (n + 1) bs o') m")
m("sa-step-seed", "annealStep", AN, "initial temperatures reversed", "C44", ".next (.loop seed todo done 0 betas o) m", ".next (.loop seed todo done 0 betas.reverse o) m")
m("sa-finish-lose", "annealFinish", AN, "earlier parts forgotten", "C43", ".next (.comps seed todo (done ++ [k])) m", ".next (.comps seed todo [k]) m")
m("sa-finish-front", "annealFinish", AN, "parts in reverse order", "C43", ".next (.comps seed todo (done ++ [k])) m", ".next (.comps seed todo (k :: done)) m")
m("sa-core-seed", "annealCore", AN, "seed of the position instead of the argument", "C44", ".start ((dget kw \"seed\").getD 0)", ".start ((dget kw \"seeds\").getD 0)")
m("sa-total-cost", "infTotal", AN, "cost of the first part", "C43", "⟨pr.total (done.map InfPartOf.cost), path, done.map InfPartOf.cost, paths⟩", "⟨(done.map InfPartOf.cost).headD pr.zero, path, done.map InfPartOf.cost, paths⟩")
m("sa-total-nomerge", "infTotal", AN, "paths concatenated without autocomplete", "C43", "match mergePaths n paths true with\n  | .error e => .error e\n  | .ok path => .ok ⟨pr.total", "match mergePaths n paths false with\n  | .error e => .error e\n  | .ok path => .ok ⟨pr.total")
m("sa-tree-noout", "NetworkRec.tree", AN, "output indices dropped", "C43", "(some (enum N.output)) true", "(some []) true")
m("sa-tree-none", "NetworkRec.tree", AN, "output indices guessed", "C43", "(some (enum N.output)) true", "none true")
m("sa-inf-cur", "infAnneal", AN, "current instead of minimum cost", "C43", "t.path.map fun p => .ok ⟨pr.shown o.1.core.minTotal, p⟩", "t.path.map fun p => .ok ⟨pr.shown o.1.core.total, p⟩")
m("sa-inf-tree", "infAnneal", AN, "current instead of best tree", "C43", "match getCtree o.1.cache o.1.core.minCtree with", "match getCtree o.1.cache o.1.core.ctree with")
m("sa-inf-trivial", "infAnneal", AN, "cost 1 for a single tensor", "C43", "trivial := ⟨pr.zero, []⟩", "trivial := ⟨pr.shown 1, []⟩")
m("sa-sort-rev", "sortResults", AN, "most expensive first", "C44", "cost a ≤ cost b", "cost b ≤ cost a")
m("sa-sort-none", "runAnneal", AN, "not sorted", "C44", ".ok (sortResults cost rs)", ".ok rs")
m("sa-fw-union", "fwTotal", AN, "slices of the first part only", "C43", "ss.foldl (· ∪ ·) s⟩", "s⟩")
m("sa-fw-inter", "fwTotal", AN, "intersection of the slices", "C43", "ss.foldl (· ∪ ·) s⟩", "ss.foldl (· ∩ ·) s⟩")
m("sa-fw-cur", "fwAnneal", AN, "current instead of best slices", "C43", "o.opt.core.minSlices with", "o.opt.core.slices with")
m("sa-fw-turn", "sliceTurn", AN, "slices never updated (harmless for these claims)", "C44", "decide ((n : ℤ) % updateSlices = 0)", "false")
m("sa-fw-neg", "optimizeFw", AN, "negative max_width accepted", "C55", "if maxWidth < 0 then (sys, some (.error (.lib .valueError)))\n      else", "if False then (sys, some (.error (.lib .valueError)))\n      else")
m("sa-fw-trivial", "fwAnneal", AN, "all indices sliced for single tensors", "C43", "trivial := ⟨pr.zero, [], ∅⟩", "trivial := ⟨pr.zero, [], N.output⟩")
m("sa-fw-zero", "fwAnneal", AN, "update_slices = 0 means never", "C55", "if updateSlices = 0 then some (.error .zeroDivision)\n    else", "if False then some (.error .zeroDivision)\n    else")
m("sa-range-up-again", "numericRange", AN, "length rounded down", "C44", "(if d / st = (d / st).floor then 0 else 1)", "0", tightened=["C44_range"])
m("sa-fw-turn-again", "sliceTurn", AN, "slices never updated", "C44", "decide ((n : ℤ) % updateSlices = 0)", "false", tightened=["C44_slice_turn"])

LT = "Model/LoadText.lean"
m("lt-crlf", "splitGo", LT, "CR LF ends two lines", "C50", "if cr && decide (c = 10) then", "if cr && decide (c = 10) && false then")
m("lt-lfcr", "splitGo", LT, "LF CR taken as one end", "C50", "splitGo (decide (c = 13)) [] cs", "splitGo (decide (c = 10)) [] cs")
m("lt-last", "splitGo", LT, "last line without end dropped", "C50", "| _, c :: cur, [] => [c :: cur]\n  | cr", "| _, _ :: _, [] => []\n  | cr")
m("lt-first", "splitlines", LT, "empty text has one line", "C50", "splitGo false [] s", "if s = [] then [[]] else splitGo false [] s")
m("lt-rev", "splitGo", LT, "lines reversed", "C50", "splitGo false (cur ++ [c]) cs", "splitGo false (c :: cur) cs")
m("lt-word", "splitWords", LT, "last word dropped", "C50", "| c :: cur, [] => [c :: cur]\n  | [], c", "| _ :: _, [] => []\n  | [], c")
m("lt-wordrev", "splitWords", LT, "words start anew", "C50", "splitWords (d :: cur ++ [c]) cs", "splitWords [c] cs")
m("lt-empty", "splitWords", LT, "empty words kept", "C50", "| [], c :: cs => if isSpace c then splitWords [] cs", "| [], c :: cs => if isSpace c then [] :: splitWords [] cs")
m("lt-collapse", "collapse", LT, "spaces removed", "C50", "(if sp then collapse true cs else 32 :: collapse true cs)", "collapse true cs")
m("lt-bad-hash", "isBadLine", LT, "comments are not ignored", "C50", "!decide (l.head? = some 35)", "!decide (l.head? = some 36)")
m("lt-bad-blank", "isBadLine", LT, "blank lines are not ignored", "C50", "l.any (fun c => !isSpace c) &&", "!l.isEmpty &&")
m("lt-bad-any", "isBadLine", LT, "all lines accepted", "C50", "!decide (l.head? = some 35) && !isDataLine digit l", "!decide (l.head? = some 35) && !isDataLine digit l && false")
m("lt-data-glued", "isDataLine", LT, "no space needed after the dimension", "C50", "      | d :: _ => isSpace d", "      | _ :: _ => true")
m("lt-data-only", "isDataLine", LT, "a dimension alone is no data", "C50", "      | [] => true\n      | d", "      | [] => false\n      | d")
m("lt-val", "wordVal", LT, "base 8", "C50", "10 * n", "8 * n")
m("lt-valrev", "wordVal", LT, "only the last digit", "C50", "10 * n + (digit c).getD 0", "(digit c).getD 0 + 0 * n")
m("lt-row", "dataRow", LT, "names sorted backwards", "C50", "(wordVal digit d, ts)", "(wordVal digit d, ts.reverse)")
m("lt-kind-slash", "textKind", LT, "lines with // not skipped", "C50", "&& !([47, 47].isPrefixOf l)", "")
m("lt-kind-all", "textKind", LT, "all lines read as data", "C50", "((splitlines s).filter (isDataLine digit)).map", "(splitlines s).map")
m("lt-kind-empty", "textKind", LT, "empty text accepted", "C50", "| [] => .error .valueError", "| [] => .ok .other")
m("lt-dims", "rowDimVal", LT, "dimensions squared", "C50", ".num (d : ℚ)", ".num ((d * d : ℕ) : ℚ)")
m("lt-rows-typeerror", "loadRows", LT, "rows without names accepted", "C50", "if ∃ r ∈ rows, r.2 = [] then .error .typeError\n  else\n    match", "if False then .error .typeError\n  else\n    match")
m("lt-rows-swap", "loadRows", LT, "output and sparse swapped", "C50", "| .ok (ts, dims, out, sparse) =>", "| .ok (ts, dims, sparse, out) =>")
m("lt-rows-out", "loadRows", LT, "no output indices", "C50", "(some ((List.range rows.length).filter (· ∈ out)))", "(some ((List.range 0).filter (· ∈ out)))")
m("lt-rows-tensor", "rowTensors", LT, "tensors reversed", "C50", "| .ok l => .ok (some t :: l)", "| .ok l => .ok (l ++ [some t])")

IO = "Model/AppIO.lean"
m("io-nan", "WidthArg.ltInf", IO, "NaN is finite", "C50", "| .nan => false", "| .nan => true")
m("io-inf", "WidthArg.ltInf", IO, "infinity is finite", "C50", "| .posInf => false", "| .posInf => true")
m("io-disp", "finiteWidthModule", IO, "modules swapped", "C50", "decide (w ≠ .none) && w.ltInf", "!(decide (w ≠ .none) && w.ltInf)")
m("io-fmt", "dumpFormat", IO, "format not lower-cased", "C50", "| some f => env.lower f", "| some f => f")
m("io-fmtdef", "dumpFormat", IO, "json by default", "C50", "| none => rawText", "| none => jsonText")
m("io-bad", "badFilename", IO, "file name not checked", "C50", "decide (f ≠ []) && !env.valid f", "decide (f ≠ []) && !env.valid f && false")
m("io-taken", "fileTaken", IO, "file always overwritten", "C50", "!a.overwrite && env.present f", "!a.overwrite && env.present f && false")
m("io-over", "fileTaken", IO, "overwrite ignored", "C50", "!a.overwrite && env.present f", "env.present f")
m("io-extra", "dumpCheck", IO, "other keywords accepted", "C50", "if a.extra then .error .typeError", "if a.extra && false then .error .typeError")
m("io-comp", "dumpCheck", IO, "unknown compression accepted", "C50", "else if env.lower a.compression ∉ [autoText, noneText, bz2Text, gzipText] then .error .valueError\n", "")
m("io-fixed", "dumpCheck", IO, "the check as documented", "C50", "env.lower a.compression = [] then", "a.filename = none then", note="this is the fix; C50_violated and the description of accepted arguments must fail")
m("io-checkonly", "dumpResults", IO, "check_only ignored", "C50", "if a.checkOnly then .ok .nothing", "if a.checkOnly && false then .ok .nothing")
m("io-join", "joinRes", IO, "results not separated", "C50", "s ++ [44, 32] ++ t", "s ++ t")
m("io-json", "dumpJson", IO, "bracket missing", "C50", "([91] ++ t ++ [93])", "([91] ++ t)")
m("io-suffix", "nameSuffix", IO, "hidden files have a suffix", "C50", "name.length ≤ (name.reverse.takeWhile (· ≠ 46)).reverse.length + 1", "name.length ≤ (name.reverse.takeWhile (· ≠ 46)).reverse.length")
m("io-suffix-first", "nameSuffix", IO, "suffix from the first dot", "C50", "else 46 :: (name.reverse.takeWhile (· ≠ 46)).reverse", "else name.dropWhile (· ≠ 46)")
m("io-auto", "chooseCompress", IO, "suffix always used", "C50", "if compression = autoText then", "if True then")
m("io-gz", "chooseCompress", IO, "bz2 taken as gzip", "C50", "if suffix = gzipText then .gzip", "if suffix = gzipText ∨ suffix = bz2Text then .gzip")
m("io-swap", "compressBytes", IO, "gzip and bz2 swapped", "C50", "| .gzip, b => env.gz b", "| .gzip, b => env.bz b")
m("io-noenc", "dumpResults", IO, "text not compressed", "C50", ".file f (compressBytes env (chooseCompress f compression) (env.encode s))", ".file f (env.encode s)")
m("io-pickle", "dumpResults", IO, "pickle not compressed", "C50", ".file f (compressBytes env (chooseCompress f compression) (env.pickle (tn, res)))", ".file f (env.pickle (tn, res))")
m("io-load-gz", "loadBytes", IO, "gzip not recognised", "C56", "b.take 2 = [31, 139]", "b.take 2 = [31, 140]")
m("io-load-bz", "loadBytes", IO, "bz2 not recognised", "C56", "b.take 2 = [66, 90]", "b.take 2 = [66, 91]")
m("io-load-once", "loadBytes", IO, "gunzip result decompressed as bz2", "C56", "match env.gunzip b with", "match env.bunzip b with")
m("io-load-fix", "loadBytes", IO, "bytes returned if not text", "C56", "| none => .error .unicodeDecode", "| none => .ok (.binary b)", note="this is the fix; the theorems on the failure must fail")
m("io-load-text", "loadBytes", IO, "text preferred over JSON", "C56", "| some v => .ok (.json v)", "| some _ => .ok (.text s)")
m("io-file-valid", "loadFile", IO, "name not checked", "C56", "if valid name = false then .error .valueError\n  else\n", "if valid name = false ∧ False then .error .valueError\n  else\n")

# load_tn of a TensorNetwork
LN = "Model/LoadNet.lean"
m("ln-sparse-dec", "wantDecompose", LN, "sparse indices ignored for the decomposition", "C57", "if N.sparse ≠ ∅ then false else if N.provided < N.arrays.length then false else decompose", "if N.provided < N.arrays.length then false else decompose")
m("ln-partial-dec", "wantDecompose", LN, "decomposition with some of the arrays", "C57", "if N.sparse ≠ ∅ then false else if N.provided < N.arrays.length then false else decompose", "if N.sparse ≠ ∅ then false else decompose")
m("ln-never-dec", "wantDecompose", LN, "decomposition without arrays only", "C57", "if N.provided < N.arrays.length then false else decompose", "if N.provided ≤ N.arrays.length then false else decompose")
m("ln-sparse-fuse", "wantFuse", LN, "sparse indices ignored when fusing", "C57", "if N.sparse ≠ ∅ then none else if N.provided ∉", "if N.provided ∉")
m("ln-partial-fuse", "wantFuse", LN, "fusing with some of the arrays", "C57", "if N.provided ∉ [0, N.arrays.length] then none else fuse", "fuse")
m("ln-noarr-fuse", "wantFuse", LN, "no fusing without arrays", "C57", "N.provided ∉ [0, N.arrays.length]", "N.provided ∉ [N.arrays.length]")
m("ln-dec-out", "decomposeStep", LN, "output indices not renamed", "C57", "output := N.output.image fun x => (dget hmap x).getD x", "output := N.output")
m("ln-dec-inds", "decomposeStep", LN, "old indices kept", "C57", "        tsInds := new\n        arrays := arrs.map some", "        tsInds := N.tsInds\n        arrays := arrs.map some")
m("ln-dec-arrays", "decomposeStep", LN, "old arrays kept", "C57", "        arrays := arrs.map some\n        tsTags", "        arrays := N.arrays\n        tsTags")
m("ln-dec-tags", "decomposeStep", LN, "tags kept", "C57", "tsTags := arrs.map fun _ => none", "tsTags := N.tsTags")
m("ln-dec-map", "decomposeStep", LN, "map not recorded", "C57", "hyperMap := some hmap })", "hyperMap := none })")
m("ln-dec-twice", "decomposeStep", LN, "tag not checked", "C57", "else if N.hyperMap.isSome then some (.error .valueError) ", "else if N.hyperMap.isSome ∧ False then some (.error .valueError) ")
m("ln-tags-swap", "joinTags", LN, "tags swapped", "C57", "some (.pair x y)", "some (.pair y x)")
m("ln-tags-drop", "joinTags", LN, "second tag dropped", "C57", "| none, some y => some y", "| none, some _ => none")
m("ln-tags-front", "tagLoop", LN, "tags put in front", "C57", "tagLoop path (rest ++ [joinTags tx ty])", "tagLoop path (joinTags tx ty :: rest)")
m("ln-tags-skip", "tagLoop", LN, "tags of the first contraction only", "C57", "tagLoop path (rest ++ [joinTags tx ty])", ".ok (rest ++ [joinTags tx ty])")
m("ln-con-noarr", "contractStep", LN, "arrays not contracted", "C57", "if provided ≠ 0 then", "if provided = 0 then")
m("ln-con-out", "contractStep", LN, "output indices not passed", "C57", "match contract enum path N.tsInds (some (enum N.output))", "match contract enum path N.tsInds (some [])")
m("ln-con-out2", "contractStep", LN, "output indices not passed without arrays", "C57", "match contractInds enum path N.tsInds (some (enum N.output))", "match contractInds enum path N.tsInds (some [])")
m("ln-fuse-width", "fuseStep", LN, "half the width", "C57", "(.dict N.dims) w (some (A.enum N.output)) []", "(.dict N.dims) (w + w) (some (A.enum N.output)) []", note="twice the width")
m("ln-fuse-out", "fuseStep", LN, "output indices not passed to fuse", "C57", "w (some (A.enum N.output)) []", "w none []")
m("ln-fuse-path", "fuseStep", LN, "path not recorded", "C57", "fusePath := some path })", "fusePath := none })")
m("ln-fuse-tags", "fuseStep", LN, "tags not fused", "C57", "tsTags := tags, fusePath", "tsTags := N.tsTags, fusePath")
m("ln-fuse-twice", "fuseStep", LN, "tag not checked", "C57", "if N.fusePath.isSome then some (.error .valueError) ", "if N.fusePath.isSome ∧ False then some (.error .valueError) ")
m("ln-fuse-arrs", "fuseStep", LN, "arrays not replaced", "C57", "output := out, arrays := arrs, tsTags", "output := out, tsTags")
m("ln-recs-shape", "tensorRecs", LN, "arrays not checked", "C57", "(a.map NDArray.shape) with", "none with", note="harmless: arrays always have the right shape at this point")
m("ln-recs-dims", "netDimVal", LN, "dimensions off by one", "C57", ".num (d : ℚ)", ".num (d + 1 : ℚ)")
m("ln-ret-out", "returnStep", LN, "output indices found from the tensors", "C57", "(some (A.enum N.output)) (some (A.enum N.sparse)) with", "none (some (A.enum N.sparse)) with")
m("ln-ret-sparse", "returnStep", LN, "sparse indices dropped", "C57", "(some (A.enum N.output)) (some (A.enum N.sparse)) with", "(some (A.enum N.output)) none with")
m("ln-ret-dims", "returnStep", LN, "dimensions kept", "C57", "dims := dget R.dims", "dims := N.dims")
m("ln-fuse-zero", "prepareNet", LN, "negative widths used", "C57", "if 0 < w then fuseStep A N.provided w N1 else some (.ok N1)", "fuseStep A N.provided w N1")
m("ln-fuse-first", "prepareNet", LN, "the network given is fused", "C57", "fuseStep A N.provided w N1 else", "fuseStep A N.provided w N else")
m("ln-count-after", "prepareNet", LN, "no arrays for fusing", "C57", "fuseStep A N.provided w N1 else", "fuseStep A 0 w N1 else")

# Python cost models
CM = "Model/CostModel.lean"
m("cm-proj-zero", "PyNum.badProjs", CM, "n_projs = 0 accepted", "C58", "decide (n.val < 1)", "decide (n.val < 0)")
m("cm-proj-frac", "PyNum.badProjs", CM, "fractions accepted", "C58", "n.val.den != 1 || decide (n.val < 1)", "decide (n.val < 1)")
m("cm-alone", "checkSparse", CM, "n_projs without sparse_inds accepted", "C58", "else if sparse.isNone && projsTrue nProjs then .error .valueError\n", "")
m("cm-given", "checkSparse", CM, "sparse indices without n_projs accepted", "C58", "else if sparseTrue (sparse.map List.toFinset) && !projsTrue nProjs then .error .valueError\n", "")
m("cm-empty", "checkSparse", CM, "empty sparse_inds need n_projs", "C58", "sparseTrue (sparse.map List.toFinset) && !projsTrue nProjs", "sparse.isSome && !projsTrue nProjs")
m("cm-type", "PyCost.make", CM, "types not checked", "C58", "if costType ∉ costTypes then .error .attributeError ", "if costType ∉ costType :: costTypes then .error .attributeError ")
m("cm-err", "PyCost.make", CM, "NotImplementedError raised", "C58", "if costType ∉ costTypes then .error .attributeError", "if costType ∉ costTypes then .error .notImplemented")
m("cm-types", "costTypes", CM, "float16 supported", "C58", '["float32", "float64", "float128", "float1024"]', '["float16", "float32", "float64", "float128", "float1024"]')
m("cm-bits-rep", "bitsIn", CM, "repeated positions accepted", "C58", "if ¬ xs.Nodup then .error .valueError\n  else if", "if")
m("cm-bits-off", "bitsIn", CM, "positions off by one", "C58", "(xs.map order.idxOf).toFinset", "(xs.map fun x => order.idxOf x + 1).toFinset")
m("cm-core-empty", "PyCost.core", CM, "empty sparse_inds refused without n_projs", "C58", "if s = ∅ then .ok .simple\n    else if", "if")
m("cm-core-n", "PyCost.core", CM, "n_projs + 1", "C58", ".ok (.sparse b n)", ".ok (.sparse b (n + 1))")
m("cm-core-simple", "PyCost.core", CM, "sparse indices ignored", "C58", ".ok (.sparse b n)", ".ok .simple")
m("cm-all-nosparse", "PyCost.allInds", CM, "sparse indices not appended", "C58", "uniqueEverseen (xs ++ enum s)", "uniqueEverseen xs")
m("cm-all-front", "PyCost.allInds", CM, "sparse indices put in front", "C58", "uniqueEverseen (xs ++ enum s)", "uniqueEverseen (enum s ++ xs)")
m("cm-all-dup", "PyCost.allInds", CM, "indices not deduplicated", "C58", "uniqueEverseen (xs ++ enum s)", "xs ++ enum s", note="harmless: positions are those of the first occurrences")
m("cm-dims-key", "PyDims.inOrder", CM, "missing dimensions are a KeyError", "C58", "| none => .error .valueError\n    | some l => .ok (.vec l)", "| none => .error .keyError\n    | some l => .ok (.vec l)")
m("cm-cost-c", "PyCost.contractionCost", CM, "indices of the result added", "C58", "let _ ← bitsIn order C\n  return core.cost d (a ∪ b)\n", "let c ← bitsIn order C\n  return core.cost d (a ∪ b ∪ c)\n")
m("cm-cost-b", "PyCost.contractionCost", CM, "second operand ignored", "C58", "return core.cost d (a ∪ b)\n", "return core.cost d (a ∪ (b \\ b))\n")
m("cm-cost-order", "PyCost.contractionCost", CM, "indices of C not counted", "C58", "(uniqueEverseen (A ++ B ++ C))\n", "(uniqueEverseen (A ++ B))\n")
m("cm-fw-neg", "PyFwCost.make", CM, "negative widths accepted", "C58", "if maxWidth < 0 then .error .valueError ", "if maxWidth < 0 ∧ False then .error .valueError ")
m("cm-fw-zero", "PyFwCost.make", CM, "zero width refused", "C58", "if maxWidth < 0 then .error .valueError ", "if maxWidth ≤ 0 then .error .valueError ")
m("cm-fw-res", "PyFwCost.contractionCost", CM, "result not checked", "C58", "  if C.any (fun x => decide (x ∉ A ++ B)) then throw .valueError                        -- 306\n", "")
m("cm-fw-slices", "PyFwCost.contractionCost", CM, "slices ignored", "C58", "return core.cost d (a ∪ b ∪ s)", "return core.cost d (a ∪ b ∪ (s \\ s))")
m("cm-fw-order", "PyFwCost.contractionCost", CM, "slices not among all indices", "C58", "(uniqueEverseen (A ++ B ++ C ++ slices))", "(uniqueEverseen (A ++ B ++ C))")
m("cm-delta-in", "PyFwCost.deltaWidth", CM, "index not checked", "C58", "  if index ∉ inds then throw .valueError                                                -- 242\n", "")
m("cm-delta-pos", "PyFwCost.deltaWidth", CM, "position among the sparse indices", "C58", "let pos := inds.idxOf index", "let pos := (enum (m.sparse.getD ∅)).idxOf index")
m("cm-width-delta", "CostCore.deltaWidth", CM, "width instead of difference", "C58", "| .simple => simpleDelta log2 dims xs pos", "| .simple => simpleWidth log2 dims xs")
m("cm-eq", "PyCost.eq", CM, "sparse indices not compared", "C58", "decide (m.sparse = o.sparse) &&", "true &&")
m("cm-proj-neg", "projsArg", CM, "floats converted", "C58", "  | _ => .error .typeError", "  | some (.float q) => .ok q.num.toNat\n  | _ => .error .typeError")

RT = "Model/RandomTensors.lean"
m("rt-init-k", "growInit", RT, "first index for k - 1 tensors", "C60", "rngSample g (enum (Finset.range n)) k s", "rngSample g (enum (Finset.range n)) (k - 1) s")
m("rt-init-avail", "growInit", RT, "used tensors stay available", "C60", "⟨Finset.range n \\ row.toFinset, row.toFinset,", "⟨Finset.range n, row.toFinset,")
m("rt-step-k", "growStep", RT, "k used tensors instead of k - 1", "C60", "rngSample g (enum G.used) (k - 1) s", "rngSample g (enum G.used) k s")
m("rt-step-conn", "growStep", RT, "new index not attached to the new tensor", "C60", "G.inds ++ [(row ++ [x]).map some]", "G.inds ++ [row.map some]")
m("rt-step-avail", "growStep", RT, "neighbours drawn from the unused tensors", "C60", "rngSample g (enum G.used) (k - 1) s", "rngSample g (enum G.avail) (k - 1) s")
m("rt-loop", "growLoop", RT, "one tensor less", "C60", "growLoop g enum k (n - k) G s", "growLoop g enum k (n - k - 1) G s")
m("rt-inner-k", "innerRows", RT, "k - 1 tensors", "C60", "let (row, s) ← rngSample g (List.range n) k s\n    let (rows, s) ← innerRows n k m s", "let (row, s) ← rngSample g (List.range n) (k - 1) s\n    let (rows, s) ← innerRows n k m s")
m("rt-inner-out", "attempt", RT, "output indices not subtracted", "C60", "((nInds : ℤ) - G.inds.length - nOut).toNat", "((nInds : ℤ) - G.inds.length).toNat")
m("rt-out-star", "outRows", RT, "output indices not marked", "C60", ".ok ([some t, none] :: rows, s)", ".ok ([some t] :: rows, s)")
m("rt-hyper-k", "hyperRows", RT, "k tensors", "C60", "let (row, s) ← rngSample g (List.range n) (k - 1) s", "let (row, s) ← rngSample g (List.range n) k s")
m("rt-hyper-star", "hyperRows", RT, "output hyper-indices not marked", "C60", ".ok ((row.map some ++ [none]) :: rows, s)", ".ok (row.map some :: rows, s)")
m("rt-nhyper", "nHyper", RT, "rounded down", "C60", "nOut / 2 + nOut % 2", "nOut / 2")
m("rt-nplain", "nPlain", RT, "all output indices plain", "C60", "if k ≤ 2 then nOut else nOut / 2", "nOut")
m("rt-swap", "nPlain", RT, "larger half plain", "C60", "if k ≤ 2 then nOut else nOut / 2\n", "if k ≤ 2 then nOut else nOut / 2 + nOut % 2\n")
m("rt-owner", "addOwner", RT, "only the last index kept", "C60", "(dget D t).getD [] ++ [x]", "[x]")
m("rt-owner-first", "addOwner", RT, "index put in front (harmless: tensors are permuted)", "C60", "(dget D t).getD [] ++ [x]", "[x] ++ (dget D t).getD []", note="harmless: the tensors are permuted anyway; a helper lemma fixes the order")
m("rt-pop", "attempt", RT, "output entry left among the tensors", "C60", "((dpop D none).map Prod.snd)", "(D.map Prod.snd)")
m("rt-unique", "component", RT, "equal tensors accepted", "C60", "if (uniqueEverseen c.1).length = n then", "if c.1.length = n then")
m("rt-never", "component", RT, "unique tensors refused", "C60", "if (uniqueEverseen c.1).length = n then", "if (uniqueEverseen c.1).length ≠ n then")
m("rt-tries", "component", RT, "wrong exception", "C60", "| 0, _ => .error .valueError   ", "| 0, _ => .error .assertionError   ")
m("rt-shift", "joinTensors", RT, "indices not shifted", "C60", "x + e.2 * nInds)\n\n", "x + 0 * e.2 * nInds)\n\n")
m("rt-shift-one", "joinTensors", RT, "shifted by one only", "C60", "x + e.2 * nInds)\n\n", "x + e.2)\n\n")
m("rt-shift-out", "joinOutput", RT, "output indices not shifted", "C60", "e.1.2.image (fun x => x + e.2 * nInds) ∪ o", "e.1.2 ∪ o")
m("rt-type", "joinTensors", RT, "no components give no tensors", "C60", "if cs = [] then .error .typeError", "if cs = [] then .ok []")
m("rt-name", "nameMap", RT, "names given to the indices in the order of the tensors, with repetitions", "C60", "(uniqueEverseen ts.flatten).zip names", "ts.flatten.zip names")
m("rt-name-few", "nameTensors", RT, "one name less", "C60", "(N.random (uniqueEverseen ts.flatten).length ", "(N.random ((uniqueEverseen ts.flatten).length - 1) ")
m("rt-name-out", "nameTensors", RT, "output indices keep the numbers", "C60", "out.image fun x => (dget (nameMap names ts) x).getD N.pyNone)", "out.image N.ofNat)")
m("rt-name-flip", "nameTensors", RT, "flag inverted", "C60", "if randomize then\n", "if !randomize then\n")
m("rt-check", "randomTensors", RT, "one index less accepted", "C60", "(nInds : ℤ) - nOut < (n : ℤ) + 1 - k ∨ n < k", "(nInds : ℤ) - nOut < (n : ℤ) - k ∨ n < k")
m("rt-check-more", "randomTensors", RT, "one index more required", "C60", "(nInds : ℤ) - nOut < (n : ℤ) + 1 - k ∨ n < k", "(nInds : ℤ) - nOut ≤ (n : ℤ) + 1 - k ∨ n < k")
m("rt-check-k", "randomTensors", RT, "k larger than the number of tensors accepted", "C60", "(n : ℤ) + 1 - k ∨ n < k then", "(n : ℤ) + 1 - k then")
m("rt-check-out", "randomTensors", RT, "output indices not subtracted in the check", "C60", "(nInds : ℤ) - nOut < (n : ℤ) + 1 - k ∨", "(nInds : ℤ) < (n : ℤ) + 1 - k ∨")
m("rt-final", "checkTensors", RT, "condition of the last assertion inverted", "C60", "if (uniqueEverseen r.1).length = r.1.length then .ok r else", "if (uniqueEverseen r.1).length ≠ r.1.length then .ok r else")
m("rt-loop-names", "namesLoop", RT, "names not made unique", "C60", "uniqueEverseen (names ++ [(get s).1])", "names ++ [(get s).1]")
m("rt-loop-drop", "namesLoop", RT, "names forgotten", "C60", "uniqueEverseen (names ++ [(get s).1])", "uniqueEverseen [(get s).1]")
m("rt-loop-same", "namesLoop", RT, "generator not advanced", "C60", "namesLoop get n fuel names' (get s).2", "namesLoop get n fuel names' s")
m("rt-names-zero", "randomInds", RT, "n = 0 not treated separately", "C60", "if n = 0 then some [] else namesLoop get n fuel [] s", "namesLoop get n fuel [] s")

TC = "Model/TreeCheck.lean"
m("tc-pos", "pyPos", TC, "keys from the back are off by one", "C61", "some (key + n).toNat", "some (key + n - 1).toNat")
m("tc-pos-end", "pyPos", TC, "one position too many", "C61", "if key < n then some key.toNat", "if key ≤ n then some key.toNat")
m("tc-pos-neg", "pyPos", TC, "the first element cannot be reached from the back", "C61", "-(n : ℤ) ≤ key", "-(n : ℤ) < key")
m("tc-child", "PyTree.indsChild", TC, "children shifted", "C61", "| some c => t.indsAt c\n", "| some c => t.indsAt (c + 1 : ℕ)\n")
m("tc-same-nodes", "Tree.same", TC, "nodes not compared", "C61", "S.size == T.size && (List.range S.size).all fun i => S.nodes i == T.nodes i", "S.size == T.size")
m("tc-same-parents", "Tree.same", TC, "only parents compared", "C61", "S.nodes i == T.nodes i", "(S.nodes i).parent == (T.nodes i).parent")
m("tc-same-inds", "CTree.same", TC, "index sets not compared", "C61", "decide (c.inds i = d.inds i)", "true")
m("tc-same-dims", "CTree.same", TC, "dimensions not compared", "C61", "decide (c.dims = d.dims)", "true")
m("tc-same-order", "PyTree.same", TC, "names not compared", "C61", " && decide (t.indsOrder = u.indsOrder)", "")
m("tc-inds-all", "getInds", TC, "all names", "C61", "| some xs => .ok xs.toFinset\n", "| some _ => .ok t.indsOrder.toFinset\n")
m("tc-to", "indsTo", TC, "positions skipped instead of taken", "C61", ".take stop).mapM", ".drop stop).mapM")
m("tc-prod", "dimProd", TC, "dimensions added", "C61", "ds.foldl (· * ·) 1", "ds.foldl (· + ·) 1")
m("tc-prod-start", "dimProd", TC, "product starts at 2", "C61", "ds.foldl (· * ·) 1", "ds.foldl (· * ·) 2")
m("tc-max", "pyMax", TC, "smallest instead of largest", "C61", "l.foldl max a", "l.foldl min a")
m("tc-max-first", "pyMax", TC, "first element", "C61", ".ok (l.foldl max a)", ".ok a")
m("tc-max-leaves", "maxWidth", TC, "only the leaves", "C61", "let ws ← (List.range t.core.tree.size).mapM", "let ws ← (List.range t.core.tree.nLeaves).mapM")
m("tc-swap", "swapAll", TC, "no swaps", "C61", "(List.range T.size).foldl Tree.swapWithNN T", "T")
m("tc-dims", "dimsAgree", TC, "only the first dimension", "C61", "then dimsAgree dims own l else", "then .ok true else")
m("tc-dims-key", "dimsAgree", TC, "missing dimensions accepted", "C61", "| none => .error .keyError\n    | some d => if", "| none => dimsAgree dims own l\n    | some d => if")
m("tc-shared-or", "nodeShared", TC, "all indices of the two children", "C61", "else return some (ix ∩ iy)", "else return some (ix ∪ iy)")
m("tc-shared-flag", "nodeShared", TC, "sharing always required", "C61", "if shared && decide (ix ∩ iy = ∅)", "if decide (ix ∩ iy = ∅)")
m("tc-shared-twice", "nodeShared", TC, "first child twice", "C61", "let iy ← t.indsChild (t.core.tree.nodes p).c1", "let iy ← t.indsChild (t.core.tree.nodes p).c0")
m("tc-counts", "countsAgree", TC, "only lower counts refused", "C61", "if v = counted.count x then", "if v ≤ counted.count x then")
m("tc-counts-key", "countsAgree", TC, "missing counts accepted", "C61", "| none => .error .keyError\n    | some v =>", "| none => countsAgree hyper counted l\n    | some v =>")
m("tc-hyper-out", "checkHyper", TC, "outputs not counted", "C61", "let counted := xs ++ enum out", "let counted := xs")
m("tc-hyper-skip", "checkHyper", TC, "root skipped", "C61", "sharedNames enum t shared (List.range t.core.tree.size)", "sharedNames enum t shared (List.range (t.core.tree.size - 1))")
m("tc-leaves", "checkLeaves", TC, "leaves not compared", "C61", "if leaves ≠ tsInds.map List.toFinset then return false", "if leaves.length ≠ tsInds.length then return false")
m("tc-leaves-order", "checkLeaves", TC, "all indices not compared", "C61", "else return decide ((if once then [] else tsInds).flatten.toFinset = t.allInds)", "else return true")
m("tc-output", "checkOutput", TC, "first tensor instead of the last", "C61", "let out ← t.indsAt (-1)\n  return decide", "let out ← t.indsAt 0\n  return decide")
m("tc-output-sub", "checkOutput", TC, "fewer outputs accepted", "C61", "return decide (out = output.toFinset)", "return decide (out ⊆ output.toFinset)")
m("tc-tests", "allTests", TC, "some test suffices", "C61", "do if ← t then allTests l else return false", "do if ← t then return true else allTests l")
m("tc-valid", "isValidTree", TC, "validity not tested", "C61", ".ok (t.core.isValid (a.check.getD false)),", ".ok true,")
m("tc-assert", "isValidTree", TC, "assertion inverted", "C61", "tree := swapAll copy.core.tree } } : PyTree ι).same t then", "tree := swapAll copy.core.tree } } : PyTree ι).same t = false then")
m("tc-copy", "isValidTree", TC, "different copies accepted", "C61", "if !copy.same t then return false", "if copy.same t then return false")
m("tc-swap-leaves", "swapAll", TC, "only the leaves swapped", "C61", "(List.range T.size).foldl Tree.swapWithNN T", "(List.range T.nLeaves).foldl Tree.swapWithNN T")
m("tc-swap-twice", "swapAll", TC, "every node swapped, then all again in reverse order", "C61", "(List.range T.size).foldl Tree.swapWithNN T", "((List.range T.size) ++ (List.range T.size).reverse).foldl Tree.swapWithNN T")
m("tc-swap-none", "swapAll", TC, "nothing swapped", "C61", "(List.range T.size).foldl Tree.swapWithNN T", "(List.range 0).foldl Tree.swapWithNN T")
LG = "Model/LoadGates.lean"
m("sim-decompose", "loadGates", LG, "hyper-indices decomposed as the option says", "C62", "{ A with decompose := false, fuse := none }", "{ A with fuse := none }")
m("sim-fuse", "loadGates", LG, "fused as the option says", "C62", "{ A with decompose := false, fuse := none }", "{ A with decompose := false }")
m("sim-no-simplify", "loadGates", LG, "never simplified", "C62", "{ A with decompose := false, fuse := none }", "{ A with decompose := false, fuse := none, simplify := false }",
  note="a different program with the same specification: without simplification the phase is 1")
m("sim-swap-states", "loadGates", LG, "initial and final state exchanged", "C62", "seed circuit init fin with", "seed circuit fin init with")
m("sim-output", "loadGates", LG, "no output indices given", "C62", "(some (A.enum out)) none with", "none none with")
m("sim-output-empty", "loadGates", LG, "closed network", "C62", "(some (A.enum out)) none with", "(some []) none with")
m("sim-sparse", "loadGates", LG, "output indices also sparse", "C62", "(some (A.enum out)) none with", "(some (A.enum out)) (some (A.enum out)) with")
m("sim-tensors", "gateTensors", LG, "last tensor lost", "C62", "| .ok ts => .ok (t :: ts)\n  | _, _ => .ok []", "| .ok ts => .ok (if inds.isEmpty then [] else t :: ts)\n  | _, _ => .ok []")
m("sim-dims", "gateTensors", LG, "dimensions not from the array", "C62", "mkTensor xs .absent (some a.shape)", "mkTensor xs (.scalar 4) none")
m("sim-arrays", "loadGates", LG, "arrays in reverse order", "C62", ".ok N => some (.ok (N, arrs))", ".ok N => some (.ok (N, arrs.reverse))")

LO = "Model/LoadObj.lean"
m("lo-row-one", "PyObj.isRow", LO, "rows without names accepted", "C63", "if x.len.getD 0 > 1 then", "if x.len.getD 0 > 0 then")
m("lo-row-int", "PyObj.isInt", LO, "arrays with one entry are no integers", "C63", "if sh.prod = 1 then scalarInt x else .ok false", ".ok false")
m("lo-int-frac", "PyObj.scalarInt", LO, "every real number is an integer", "C63", "| .rat q => .ok q.isInt", "| .rat _ => .ok true")
m("lo-int-inf", "PyObj.scalarInt", LO, "infinity caught", "C63", "| .inf => .error .overflow", "| .inf => .ok false")
m("lo-key", "PyObj.isKey", LO, "keys not compared", "C63", "decide (q = k)", "decide (q = k + 1)")
m("lo-square", "PyObj.squareSize", LO, "rectangular matrices accepted", "C63", "if n = m then some n else Option.none", "some n")
m("lo-gate-three", "PyObj.isGate", LO, "gates with more than two entries", "C63", "if x.len.getD 0 = 2 then", "if x.len.getD 0 ≥ 2 then")
m("lo-gate-size", "PyObj.isGate", LO, "size of the matrix not compared", "C63", "decide (2 ^ qs.len.getD 0 = n)", "decide (2 ^ qs.len.getD 0 ≤ n)")
m("lo-gate-qubits", "PyObj.isGate", LO, "qubits looked for in the first entry", "C63", "match x.item 1 with", "match x.item 0 with")
m("lo-index", "PyObj.randomAccess", LO, "IndexError caught", "C63", "    | .error .typeError => .ok false\n", "    | .error .typeError => .ok false\n    | .error .indexError => .ok false\n")
m("lo-all-any", "allMap", LO, "any instead of all", "C63", "    | .ok false => .ok false\n    | .ok true => allMap f l", "    | .ok false => allMap f l\n    | .ok true => .ok true")
m("lo-all-empty", "allMap", LO, "nothing is not all", "C63", "  | [] => .ok true\n  | x :: l =>\n    match f x with", "  | [] => .ok false\n  | x :: l =>\n    match f x with")
m("lo-order", "classify", LO, "gates tested first", "C63", "match allMap PyObj.isRow xs with\n    | .error e => .error e\n    | .ok true => .ok (.rows, o)", "match allMap PyObj.isRow xs with\n    | .error e => .error e\n    | .ok true => .ok (.gates, o)")
m("lo-stdin-strip", "loadObj", LO, "standard input not stripped", "C63", "loadObj env f [] (.str (strip inp))", "loadObj env f [] (.str inp)")
m("lo-stdin-again", "loadObj", LO, "standard input can be read again", "C63", "loadObj env f [] (.str (strip inp))", "loadObj env f inp (.str (strip inp))")
m("lo-text-raw", "rowObj", LO, "dimension kept as the text of the row", "C63", ".seq (.num (.rat r.1) :: r.2.map .str)", ".seq (r.2.map .str)")
m("lo-json-first", "loadObj", LO, "file not looked at if the text is JSON", "C63", "match env.file s with", "match (if (env.json s).isSome then none else env.file s) with")
m("lo-cirq", "loadObj", LO, "every dictionary taken for a circuit", "C63", "if ks.any PyObj.isCirqKey then", "if true then")
m("lo-iterator", "loadObj", LO, "iterators a TypeError", "C63", "| .iterator => .error .notImplemented", "| .iterator => .error .typeError")
m("lo-circuit", "circuitOr", LO, "circuits not recognised", "C63", "| .circuit n => .ok (.circuit, .circuit n)\n", "")

SV = "Model/Svd.lean"
m("svd-mask-not", "svdTensors", SV, "small singular values kept", "C64", "fun k => big (s.get [k])", "fun k => !big (s.get [k])")
m("svd-mask-u", "svdTensors", SV, "U not truncated", "C64", "match U.maskCols mask, s.maskRows", "match Except.ok U, s.maskRows")
m("svd-mask-rows", "svdTensors", SV, "rows of U masked instead of columns", "C64", "match U.maskCols mask", "match U.maskRows mask")
m("svd-right-order", "svdRight", SV, "right indices reversed", "C64", "inds.filter fun x => x ∉ left", "(inds.filter fun x => x ∉ left).reverse")
m("svd-right-all", "svdRight", SV, "all indices on the right", "C64", "inds.filter fun x => x ∉ left", "inds")
m("svd-u-shape", "svdTensors", SV, "new index first in U", "C64", "match U.reshapeFree dl [], V", "match U.reshapeFree [] dl, V")
m("svd-v-shape", "svdTensors", SV, "new index last in Vh", "C64", "V.reshapeFree [] dr with", "V.reshapeFree dr [] with")
m("svd-names", "svdTensors", SV, "new index last among those of Vh", "C64", "V (name :: right))", "V (right ++ [name]))")
m("svd-u-names", "svdTensors", SV, "new index first among those of U", "C64", "(left ++ [name]) s [name]", "(name :: left) s [name]")
m("svd-whole-name", "svdWhole", SV, "indices not permuted with the axes", "C64", ".ok (.whole b left)", ".ok (.whole b inds)")
m("svd-whole-axes", "svdWhole", SV, "inverse permutation", "C64", "left.map fun x => inds.idxOf x", "inds.map fun x => left.idxOf x")
m("svd-whole-empty", "svdSplit", SV, "no index on the left goes through linalg.svd", "C64", "if left.length = 0 ∨ left.length = a.ndim then", "if left.length = a.ndim then")
m("svd-subset", "svd", SV, "indices of left not checked", "C64", "else if ¬ ∀ x ∈ left, x ∈ inds then some (.error .valueError)", "else if False then some (.error .valueError)")
m("svd-ndim", "svd", SV, "number of indices not checked", "C64", "if a.ndim ≠ inds.length then", "if a.ndim < inds.length then")
m("svd-free", "NDArray.reshapeFree", SV, "missing length of an empty array is 0", "C64", "if known = 0 ∨ a.shape.prod % known ≠ 0 then", "if a.shape.prod % known ≠ 0 then")
m("svd-matrix", "svdMatrix", SV, "sides exchanged", "C64", "(left ++ svdRight inds left).map", "(svdRight inds left ++ left).map")
m("svd-dims", "svdMatrix", SV, "rows of the matrix for one index only", "C64", "b.reshapeFree [dl.prod] []", "b.reshapeFree [dl.headD 1] []")
m("svd-mask-pos", "NDArray.maskPositions", SV, "positions in reverse order", "C64", "(List.range mask.length).filter fun k => mask.getD k false", "((List.range mask.length).filter fun k => mask.getD k false).reverse")

SM = "Model/Sampler.lean"
m("smp-cheapest-first", "cheapest", SM, "first result instead of the cheapest", "C65", "match sortResults InfResultOf.cost rs with", "match rs with")
m("smp-cheapest-last", "cheapest", SM, "dearest result", "C65", "match sortResults InfResultOf.cost rs with", "match (sortResults InfResultOf.cost rs).reverse with")
m("smp-dims", "bitTensors", SM, "dimensions 3", "C65", "mkTensor xs (.scalar 2) none", "mkTensor xs (.scalar 3) none")
m("smp-open", "bitsNetwork", SM, "all indices in the output", "C65", "mkNetwork (ts.map some) (some []) none", "mkNetwork (ts.map some) (some inds.flatten) none")
m("smp-infer", "bitsNetwork", SM, "output inferred from the hyper-counts", "C65", "mkNetwork (ts.map some) (some []) none", "mkNetwork (ts.map some) none none")
m("smp-order", "bitTensors", SM, "tensors in reverse order", "C65", ".ok (t :: ts)", ".ok (ts ++ [t])")
m("smp-width", "makeSampler", SM, "finite widths accepted", "C65", "if finiteWidthModule maxWidth then", "if !finiteWidthModule maxWidth then")
m("smp-width-none", "makeSampler", SM, "only None accepted", "C65", "if finiteWidthModule maxWidth then", "if maxWidth ≠ .none then")
m("smp-assert", "SamplerOpts.optimize", SM, "networks must differ", "C65", "N'.tensors = N.tensors ∧ N'.output", "¬ N'.tensors = N.tensors ∧ N'.output")
m("smp-seed-fixed", "SamplerOpts.optimize", SM, "path of call 0 shifted", "C65", "| .ok r => some (.ok r.path)", "| .ok r => some (.ok r.path.reverse)")
m("smp-state-only", "samplerCall", SM, "state_only ignored", "C65", "if stateOnly then some", "if false then some")
m("smp-state-neg", "samplerCall", SM, "state_only inverted", "C65", "if stateOnly then some", "if !stateOnly then some")
m("smp-rng-keep", "samplerCall", SM, "the same seed for every call", "C65", "    (randrange s).2)", "    s)")
m("smp-samples", "samplerCall", SM, "one sample too few", "C65", "order nSamples normalize", "order (nSamples - 1) normalize")
m("smp-normalize", "samplerCall", SM, "normalize inverted", "C65", "order nSamples normalize", "order nSamples (!normalize)")
m("smp-order-drop", "samplerCall", SM, "qubit order dropped", "C65", "steps qset order nSamples", "steps qset none nSamples")
m("smp-reload-sparse", "reloadNet", SM, "output and sparse indices exchanged", "C65", "(some (enum N.output)) (some (enum N.sparse))", "(some (enum N.sparse)) (some (enum N.output))", note="both sets are empty here: equivalent")
m("smp-fuel", "SamplerOpts.env", SM, "loop bound too small", "C65", "fuel := inds.length + inds.flatten.length + 1", "fuel := inds.length")

# C66: floating-point costs
m("rnd-truncate", "roundEven", "Model/Float.lean", "rounds down", "C66",
  "  else if 1 / 2 < x - ⌊x⌋ then ⌊x⌋ + 1\n", "  else if 1 / 2 < x - ⌊x⌋ then ⌊x⌋\n")
m("rnd-half-up", "roundEven", "Model/Float.lean", "ties go up", "C66",
  "  else if ⌊x⌋ % 2 = 0 then ⌊x⌋ else ⌊x⌋ + 1", "  else ⌊x⌋ + 1", note="ties to even is not part of the property; the error bound is the same")
m("rnd-ulp", "ulpExp", "Model/Float.lean", "one bit less", "C66",
  "Int.log 2 |x| + 1 - prec", "Int.log 2 |x| + 2 - prec")
m("rnd-overflow-early", "FloatFormat.round", "Model/Float.lean", "overflow at half the range", "C66",
  "if 2 ^ (F.emax + 1) ≤ roundTo F.prec x then Flt.inf false", "if 2 ^ F.emax ≤ roundTo F.prec x then Flt.inf false")
m("rnd-overflow-nan", "FloatFormat.round", "Model/Float.lean", "overflow gives NaN", "C66",
  "if 2 ^ (F.emax + 1) ≤ roundTo F.prec x then Flt.inf false", "if 2 ^ (F.emax + 1) ≤ roundTo F.prec x then Flt.nan")
m("rnd-inf-add", "Flt.add", "Model/Float.lean", "infinity plus infinity is NaN", "C66",
  "if s = t then .inf s else .nan", "if s = t then .nan else .nan")
m("rnd-inf-lost", "Flt.add", "Model/Float.lean", "infinity is lost in a sum", "C66",
  "  | .inf s, .fin _ => .inf s\n  | .inf s, .inf t => if s = t", "  | .inf _, .fin b => .fin b\n  | .inf s, .inf t => if s = t")
m("rnd-lt-inf", "Flt.ltb", "Model/Float.lean", "infinity is the least number", "C66",
  "  | .fin _, .inf t => !t\n  | .inf s, .fin _ => s\n", "  | .fin _, .inf t => t\n  | .inf s, .fin _ => !s\n")
m("rnd-lt-le", "Flt.ltb", "Model/Float.lean", "less or equal", "C66",
  "| .fin a, .fin b => decide (a < b)", "| .fin a, .fin b => decide (a ≤ b)")
m("rnd-mul-inf", "Flt.mul", "Model/Float.lean", "sign of an infinite product", "C66",
  "if a = 0 then .nan else .inf (t != decide (a < 0))", "if a = 0 then .nan else .inf (t != decide (0 < a))")
m("rnd-convert-inf", "FloatFormat.convert", "Model/Float.lean", "infinity is converted to 0", "C66",
  "  | .inf s => Flt.inf s\n  | .nan => Flt.nan\n", "  | .inf _ => Flt.fin 0\n  | .nan => Flt.nan\n")
m("rnd-pow-format", "floatGet", "Model/Float.lean", "power in the cost type", "C66",
  "F.convert (float64.round ((d : ℚ) ^ inds.card))", "F.round ((d : ℚ) ^ inds.card)", note="the repaired code; the violation must fail")
m("rnd-prod-skip", "floatGet", "Model/Float.lean", "a dimension too many", "C66",
  "foldl (fun c p => c * F.ofNat (l.getD p 0)) (F.ofNat 1)", "foldl (fun c p => c * F.ofNat (l.getD p 0)) (F.ofNat 2)")
m("rnd-sparse-max", "floatSparseGet", "Model/Float.lean", "maximum for the sparse indices", "C66",
  "(if floatGet F dims (inds ∩ sparse) < F.ofNat nProjs then", "(if F.ofNat nProjs < floatGet F dims (inds ∩ sparse) then")
m("rnd-sparse-sides", "floatSparseGet", "Model/Float.lean", "all indices in the dense part", "C66",
  "floatGet F dims (inds \\ sparse) *", "floatGet F dims inds *")
m("rnd-badlog-inf", "Fl.badLog", "Model/Float.lean", "infinite cost accepted", "C66",
  "  | .fin q => q ≤ 0\n  | _ => True\n\n", "  | .fin q => q ≤ 0\n  | .inf _ => False\n  | .nan => True\n\n",
  note="does not type-check without the decision procedure; see rnd-badlog-inf-2")
m("rnd-drift", "Walk.body", "Model/InfMem.lean", "partial cost of A updated by the difference", "C66",
  "let pc2 := Function.update pc1 posA (pc1 w.posB + pc1 posE + cc posA)", "let pc2 := Function.update pc1 posA (o.cost.partialCost posA + delta)")
m("rnd-drift-reject", "Walk.body", "Model/InfMem.lean", "partial cost of A not refreshed after a rejected move", "C66",
  "let pc2 := Function.update pc1 posA (pc1 w.posB + pc1 posC + cc posA)", "let pc2 := pc1")
m("rnd-min-total", "InfOpt.updateMin", "Model/InfMem.lean", "minimum also replaced if not smaller", "C66",
  "if o.totalCost < o.minTotal then", "if ¬ o.minTotal < o.totalCost then")
m("rnd-domain", "InfOpt.makeWith", "Model/InfMem.lean", "only the total cost tested", "C66",
  "if bad o.totalCost ∨ bad mt then return", "if bad o.totalCost then return")

m("rnd-badlog-inf-2", "Fl.badLog", "Model/Float.lean", "infinite cost accepted, with its decision procedure", "C66",
  "  | _ => True\n\ninstance {F : FloatFormat} : DecidablePred (Fl.badLog (F := F)) := fun x =>\n  match x with\n  | .fin q => inferInstanceAs (Decidable (q ≤ 0))\n  | .inf _ => isTrue trivial",
  "  | .inf _ => False\n  | .nan => True\n\ninstance {F : FloatFormat} : DecidablePred (Fl.badLog (F := F)) := fun x =>\n  match x with\n  | .fin q => inferInstanceAs (Decidable (q ≤ 0))\n  | .inf _ => isFalse id")

# C67: floating-point widths
FW = "Model/FloatWidth.lean"
m("rfw-leb-nan", "Flt.leb", FW, "comparisons with NaN hold", "C67", "  | .inf s, .inf t => s || !t\n  | _, _ => false", "  | .inf s, .inf t => s || !t\n  | _, _ => true",
  note="no width is NaN while the widths fit; the property is about these")
m("rfw-leb-strict", "Flt.leb", FW, "strict comparison", "C67", "decide (a ≤ b)", "decide (a < b)")
m("rfw-count", "floatWidth", FW, "log2(dims) not multiplied", "C67", "(float64.ofNat inds.card)", "(float64.ofNat 1)")
m("rfw-first", "floatWidth", FW, "dimension of the next index", "C67", "lg (l.getD p 0))) 0", "lg (l.getD (p + 1) 0))) 0")
m("rfw-start", "floatWidth", FW, "sum starts at 1", "C67", "lg (l.getD p 0))) 0", "lg (l.getD p 0))) 1")
m("rfw-narrow-sum", "addDouble", FW, "sum in the width type", "C67",
  "  if F.prec ≤ float64.prec then F.convert (Flt.add float64.round w x) else w + F.convert x", "  w + F.convert x",
  note="the bound allows for two roundings in each step and so does not tell the two apart")
m("rfw-double-sum", "addDouble", FW, "sum in double for every type", "C67",
  "  if F.prec ≤ float64.prec then F.convert (Flt.add float64.round w x) else w + F.convert x", "  F.convert (Flt.add float64.round w x)")
m("rfw-delta-sign", "floatDelta", FW, "sign of the difference", "C67", "if pos ∈ inds then Flt.neg (lg", "if pos ∉ inds then Flt.neg (lg")
m("rfw-log-pos", "floatLog", FW, "log2 of the next dimension", "C67", "F.convert (lg (dims.get pos))\n\n/-- simple.hpp:78-122", "F.convert (lg (dims.get (pos + 1)))\n\n/-- simple.hpp:78-122")
m("rfw-log-int", "floatLog", FW, "log2 not taken", "C67", "F.convert (lg (dims.get pos))\n\n/-- simple.hpp:78-122", "F.ofNat (dims.get pos)\n\n/-- simple.hpp:78-122")
m("rfw-min", "minDouble", FW, "the larger of the two", "C67", "if Flt.ltb x y then x else F.convert y", "if Flt.ltb x y then F.convert y else x")
m("rfw-min-float", "minDouble", FW, "compared in the width type", "C67", "if Flt.ltb x y then x", "if Flt.ltb x (F.convert y) then x",
  note="the bound holds for both comparisons")
m("rfw-sparse-sum", "floatSparseWidth", FW, "sparse part not capped", "C67", "minDouble F (floatWidth F lg dims (inds ∩ sparse)) (lg nProjs)\n\n/-- simple_sparse_inds.hpp:53-79", "floatWidth F lg dims (inds ∩ sparse)\n\n/-- simple_sparse_inds.hpp:53-79")
m("rfw-sparse-all", "floatSparseWidth", FW, "sparse indices counted twice", "C67", "floatWidth F lg dims (inds \\ sparse) +", "floatWidth F lg dims inds +")
m("rfw-sparse-delta", "floatSparseDelta", FW, "difference of a sparse index not capped", "C67", "  if pos ∈ sparse then\n    minDouble", "  if pos ∉ sparse then\n    minDouble")
m("rfw-sparse-delta-neg", "floatSparseDelta", FW, "difference the wrong way round", "C67", "(inds.toggle pos ∩ sparse)) (lg nProjs) - minDouble F (floatWidth F lg dims (inds ∩ sparse))", "(inds ∩ sparse)) (lg nProjs) - minDouble F (floatWidth F lg dims (inds.toggle pos ∩ sparse))")
m("rfw-negative", "floatWidthModel", FW, "negative max_width accepted", "C67", "  if maxWidth < 0 then none\n  else some ⟨floatWidth F", "  if False then none\n  else some ⟨floatWidth F")
m("rfw-nprojs", "floatSparseWidthModel", FW, "n_projs = 0 accepted", "C67", "else if nProjs = 0 then none", "else if False then none",
  note="C67 is about accepted models; log2(0) would be minus infinity")
m("rfw-over-flip", "Fl.over", FW, "comparison the wrong way round", "C67", "Prop := max < float64.convert w\n\ninstance {F : FloatFormat} (max : Fl float64) : DecidablePred (Fl.over (F := F) max) := fun w =>\n  inferInstanceAs (Decidable (max < float64.convert w))",
  "Prop := float64.convert w < max\n\ninstance {F : FloatFormat} (max : Fl float64) : DecidablePred (Fl.over (F := F) max) := fun w =>\n  inferInstanceAs (Decidable (float64.convert w < max))")
m("rfw-over-rounded", "Fl.over", FW, "compared with the rounded limit", "C67", "Prop := max < float64.convert w\n\ninstance {F : FloatFormat} (max : Fl float64) : DecidablePred (Fl.over (F := F) max) := fun w =>\n  inferInstanceAs (Decidable (max < float64.convert w))",
  "Prop := F.convert max < w\n\ninstance {F : FloatFormat} (max : Fl float64) : DecidablePred (Fl.over (F := F) max) := fun w =>\n  inferInstanceAs (Decidable (F.convert max < w))")
m("rfw-no-check", "FwOpt.pyMakeWith", "Model/FiniteWidth.lean", "skipped indices not tested", "C67", "decide (over (wm.width (ctree.inds p ∩ skip)))", "false")
m("rfw-check-all", "FwOpt.pyMakeWith", "Model/FiniteWidth.lean", "all indices tested", "C67", "decide (over (wm.width (ctree.inds p ∩ skip)))", "decide (over (wm.width (ctree.inds p)))")
m("rfw-skip-dropped", "FwOpt.pyMakeWith", "Model/FiniteWidth.lean", "skip_slices not passed on", "C67", "(if skip = ∅ then none else some skip) minCtree", "none minCtree")

CMP = "Model/Compare.lean"
m("cmp-inf-min", "PyInf.reduce", CMP, "the current tree given as the best one", "C68", "match getCtree o.cache o.core.minCtree with\n    | .error e => .error e\n    | .ok mt => .ok ⟨t, m", "match getCtree o.cache o.core.ctree with\n    | .error e => .error e\n    | .ok mt => .ok ⟨t, m")
m("cmp-inf-disable", "PyInf.reduce", CMP, "disable_shared_inds negated", "C68", "o.core.prng, o.core.disableShared, mt⟩", "o.core.prng, !o.core.disableShared, mt⟩",
  note="an injective change of what is compared")
m("cmp-fw-min", "PyFw.reduce", CMP, "min_slices are the slices", "C68", "o.core.inf.ctree.nInds o.core.minSlices with", "o.core.inf.ctree.nInds o.core.slices with")
m("cmp-fw-tree", "PyFw.reduce", CMP, "the best tree given as the current one", "C68", "match getCtree o.cache o.core.inf.ctree with", "match getCtree o.cache o.core.inf.minCtree with")
m("cmp-fw-skip", "PyFw.reduce", CMP, "skip_slices lost", "C68", "mt, sl, msl, o.skip⟩", "mt, sl, msl, ∅⟩")
m("cmp-builtin", "Comparand.builtin", CMP, "foreign objects are just different", "C68", ".raises .typeError", ".foreign")
m("cmp-eq-prng", "InfArgs.eq", CMP, "generators not compared", "C68", "| .inf b => .ok (a.ctree.same b.ctree && a.cmodel.eq b.cmodel && decide (a.prng = b.prng) &&", "| .inf b => .ok (a.ctree.same b.ctree && a.cmodel.eq b.cmodel &&")
m("cmp-eq-cmodel", "InfArgs.eq", CMP, "cost models not compared", "C68", "| .inf b => .ok (a.ctree.same b.ctree && a.cmodel.eq b.cmodel &&", "| .inf b => .ok (a.ctree.same b.ctree &&")
m("cmp-eq-min", "InfArgs.eq", CMP, "best trees not compared", "C68", "decide (a.disable = b.disable) && a.minCtree.same b.minCtree)\n  | .fw _", "decide (a.disable = b.disable))\n  | .fw _")
m("cmp-eq-fw", "InfArgs.eq", CMP, "shorter tuple compared by its common part", "C68", "  | .fw _ => .ok false", "  | .fw b => .ok (a.ctree.same b.ctree)")
m("cmp-eq-raises", "InfArgs.eq", CMP, "exception taken as different", "C68", "  | .fw _ => .ok false\n  | .raises e => .error e", "  | .fw _ => .ok false\n  | .raises _ => .ok false")
m("cmp-fweq-slices", "FwArgs.eq", CMP, "slices not compared", "C68", "decide (a.slices = b.slices) && ", "")
m("cmp-fweq-minslices", "FwArgs.eq", CMP, "min_slices not compared", "C68", "decide (a.minSlices = b.minSlices) && ", "")
m("cmp-fweq-skip", "FwArgs.eq", CMP, "skip_slices not compared", "C68", "decide (a.minSlices = b.minSlices) && decide (a.skip = b.skip))", "decide (a.minSlices = b.minSlices))")
m("cmp-fweq-inf", "FwArgs.eq", CMP, "no exception for an infinite-memory optimizer (repair)", "C68", "if a.ctree.same b.ctree then .error .attributeError else .ok false", ".ok false")
m("cmp-fweq-always", "FwArgs.eq", CMP, "an exception for every infinite-memory optimizer", "C68", "if a.ctree.same b.ctree then .error .attributeError else .ok false", ".error .attributeError")
m("cmp-cost-width", "PyFwCost.eq", "Model/CostModel.lean", "max_width not compared", "C68", "decide (m.maxWidth = o.maxWidth) && decide (m.widthType", "decide (m.widthType")
m("cmp-cost-sparse", "PyCost.eq", "Model/CostModel.lean", "sparse indices not compared", "C68", "decide (m.sparse = o.sparse) &&\n", "true &&\n")
TC = "Model/TreeCheck.lean"
m("cmp-tree-nodes", "CTree.same", TC, "nodes not compared", "C68", "c.tree.same d.tree && (c.nInds", "decide (c.tree.size = d.tree.size) && (c.nInds")
m("cmp-tree-ninds", "CTree.same", TC, "number of indices not compared", "C68", "(c.nInds == d.nInds && ", "(true && ")
m("cmp-tree-inds", "CTree.same", TC, "index sets not compared", "C68", "c.nInds == d.nInds && (List.range c.tree.size).all fun i => decide (c.inds i = d.inds i)", "c.nInds == d.nInds")
m("cmp-tree-last", "CTree.same", TC, "index set of the root not compared", "C68", "c.nInds == d.nInds && (List.range c.tree.size).all", "c.nInds == d.nInds && (List.range (c.tree.size - 1)).all")
m("cmp-tree-dims", "CTree.same", TC, "dimensions not compared", "C68", " &&\n    decide (c.dims = d.dims)", "")
m("cmp-tree-order", "PyTree.same", TC, "names of indices not compared", "C68", "t.core.same u.core && decide (t.indsOrder = u.indsOrder)", "t.core.same u.core")
m("cmp-tree-order-only", "PyTree.same", TC, "only the names of indices compared", "C68", "t.core.same u.core && decide (t.indsOrder = u.indsOrder)", "decide (t.indsOrder = u.indsOrder)")
m("cmp-tree-pos", "PyTree.same", TC, "the positions of the tensors compared (repair)", "C68", "t.core.same u.core && decide (t.indsOrder = u.indsOrder)", "t.core.same u.core && decide (t.indsOrder = u.indsOrder) && decide (t.tensorsPos = u.tensorsPos)")

FRM = "Model/Frameworks.lean"
m("frm-ignore-all", "CirqOp.ignored", FRM, "gates ignored, measurements kept", "C69", "if o.measurement then true else false", "if o.measurement then false else true")
m("frm-ignore-none", "CirqOp.ignored", FRM, "measurements not ignored", "C69", "if o.measurement then true else false", "false")
m("frm-ignore-nonunitary", "CirqOp.ignored", FRM, "operations without a unitary ignored too", "C69", "if o.measurement then true else false", "if o.measurement || o.unitary.isNone then true else false")
m("frm-cirq-order", "cirqToArrays", FRM, "gates in reverse", "C69", ".ok ((u, o.qubits) :: gates)", ".ok (gates ++ [(u, o.qubits)])")
m("frm-cirq-qubits", "cirqToArrays", FRM, "qubits of a gate in reverse", "C69", ".ok ((u, o.qubits) :: gates)", ".ok ((u, o.qubits.reverse) :: gates)")
m("frm-cirq-error", "cirqToArrays", FRM, "another exception for operations without a unitary", "C69", "| none => .error .typeError", "| none => .error .valueError")
m("frm-cirq-skip", "cirqToArrays", FRM, "operations without a unitary end the circuit", "C69", "| none => .error .typeError", "| none => .ok []")
m("frm-cirq-load", "loadCirq", FRM, "states before and after exchanged", "C69", "  match cirqToArrays ops with\n  | .error e => some (.error e)\n  | .ok gates => load A seed gates init fin", "  match cirqToArrays ops with\n  | .error e => some (.error e)\n  | .ok gates => load A seed gates fin init")
m("frm-cirq-loadtn", "loadTnCirq", FRM, "circuit run backwards", "C69", "loadGates A seed gates init fin", "loadGates A seed gates.reverse init fin")
m("frm-qiskit-reverse", "qiskitToArrays", FRM, "qubits reversed (repair)", "C69", "ops.map fun o => (o.matrix, o.qubits)", "ops.map fun o => (o.matrix, o.qubits.reverse)")
m("frm-qiskit-order", "qiskitToArrays", FRM, "instructions in reverse", "C69", "ops.map fun o => (o.matrix, o.qubits)", "ops.reverse.map fun o => (o.matrix, o.qubits)")
m("frm-qiskit-none", "matrices", FRM, "instructions without a matrix skipped", "C69", "| (none, _) :: _ => none", "| (none, _) :: gs => matrices gs")
m("frm-qiskit-error", "loadQiskit", FRM, "errors exchanged", "C69", "if A.simplify then .typeError else .valueError", "if A.simplify then .valueError else .typeError")
m("frm-qiskit-empty", "loadQiskit", FRM, "an empty network instead of an error", "C69", "| none => some (.error (if A.simplify then .typeError else .valueError))", "| none => some (.ok ([], [], ∅))")
m("frm-sample-cirq", "sampleCirq", FRM, "order of qubits lost", "C69", "sample A random s enumQ gates order n normalize", "sample A random s enumQ gates none n normalize")
m("frm-sample-cirq-n", "sampleCirq", FRM, "one more sample", "C69", "sample A random s enumQ gates order n normalize", "sample A random s enumQ gates order (n + 1) normalize")
m("frm-sample-qiskit", "sampleQiskit", FRM, "keywords not checked", "C69", "else if keywords.any (· ∉ loadKeywords) then some (.error .typeError)\n", "")
m("frm-sample-qiskit-args", "sampleQiskit", FRM, "positional arguments ignored", "C69", "if args ≠ 0 then some (.error .typeError)\n  else if", "if")
m("frm-keywords", "loadKeywords", FRM, "load takes an optimizer", "C69", "\"_qubits\"]", "\"_qubits\", \"optimizer\"]")

NEQ = "Model/NetEq.lean"
m("neq-broadcast-one", "broadcastRev", NEQ, "axes of length 1 do not fit", "C70", "if a = b ∨ b = 1 then", "if a = b then")
m("neq-broadcast-all", "broadcastRev", NEQ, "all shapes fit", "C70", "else if a = 1 then (broadcastRev s t).map (b :: ·)\n    else none", "else (broadcastRev s t).map (b :: ·)")
m("neq-broadcast-left", "broadcast", NEQ, "axes matched from the first", "C70", "(broadcastRev s.reverse t.reverse).map List.reverse", "broadcastRev s t")
m("neq-close-any", "entriesClose", NEQ, "one close entry suffices", "C70", "(List.range s.prod).all fun k", "(List.range s.prod).any fun k")
m("neq-close-last", "entriesClose", NEQ, "last entry not compared", "C70", "(List.range s.prod).all fun k", "(List.range (s.prod - 1)).all fun k")
m("neq-close-error", "entriesClose", NEQ, "shapes that do not fit are different (repair)", "C70", "| none => .error .valueError", "| none => .ok false")
m("neq-tensor-inds", "FullTensor.eq", NEQ, "indices not compared without arrays", "C70", "| none, none => .ok (decide (t.inds = u.inds) && decide (t.dims = u.dims))", "| none, none => .ok (decide (t.dims = u.dims))")
m("neq-tensor-inds2", "FullTensor.eq", NEQ, "indices not compared with arrays", "C70", "| .ok true => .ok (decide (t.inds = u.inds) && decide (t.dims = u.dims))", "| .ok true => .ok (decide (t.dims = u.dims))")
m("neq-tensor-dims", "FullTensor.eq", NEQ, "dimensions not compared without arrays", "C70", "| none, none => .ok (decide (t.inds = u.inds) && decide (t.dims = u.dims))", "| none, none => .ok (decide (t.inds = u.inds))")
m("neq-tensor-dims2", "FullTensor.eq", NEQ, "dimensions not compared with arrays", "C70", "| .ok true => .ok (decide (t.inds = u.inds) && decide (t.dims = u.dims))", "| .ok true => .ok (decide (t.inds = u.inds))")
m("neq-tensor-entries", "FullTensor.eq", NEQ, "different entries accepted", "C70", "| .ok false => .ok false                                                          -- 142-144", "| .ok false => .ok (decide (t.inds = u.inds) && decide (t.dims = u.dims))")
m("neq-tensor-array", "FullTensor.eq", NEQ, "an array and none are equal", "C70", "| _, _ => .ok false                                                                 -- 140-141", "| _, _ => .ok (decide (t.inds = u.inds) && decide (t.dims = u.dims))")
m("neq-tensor-other", "FullTensor.eq", NEQ, "other objects are different (repair)", "C70", "| .other => .error .attributeError", "| .other => .ok false")
m("neq-list-first", "tensorsEq", NEQ, "only the first tensors compared", "C70", "| .ok true => tensorsEq dist atol ts us", "| .ok true => .ok true")
m("neq-list-length", "tensorsEq", NEQ, "surplus tensors ignored", "C70", "  | [], [] => .ok true\n  | _, _ => .ok false", "  | _, _ => .ok true")
m("neq-list-go-on", "tensorsEq", NEQ, "the comparison goes on after a difference", "C70", "| .ok false => .ok false\n    | .ok true => tensorsEq dist atol ts us", "| .ok false => (tensorsEq dist atol ts us).map fun _ => false\n    | .ok true => tensorsEq dist atol ts us")
m("neq-net-output", "FullNetwork.eq", NEQ, "output indices not compared", "C70", "decide (N.output = M.output) && ", "")
m("neq-net-sparse", "FullNetwork.eq", NEQ, "sparse indices not compared", "C70", " && decide (N.sparse = M.sparse)", "")
m("neq-net-tags", "FullNetwork.eq", NEQ, "tags not compared", "C70", " && decide (N.tags = M.tags)", "")
m("neq-net-other", "FullNetwork.eq", NEQ, "other objects raise", "C70", "| .other => .ok false", "| .other => .error .typeError")

m("ofs-or", "OFS.or", O, "intersection instead of union", "C03", ":= binop union s o", ":= binop intersection s o")
m("ofs-and", "OFS.and", O, "union instead of intersection", "C03", ":= binop intersection s o", ":= binop union s o")
m("ofs-xor", "OFS.xor", O, "difference instead of symmetric difference", "C03", ":= binop symmetricDifference s o", ":= binop difference s o")
m("ofs-sub", "OFS.sub", O, "symmetric difference instead of difference", "C03", ":= binop difference s o", ":= binop symmetricDifference s o")
m("ofs-lt", "OFS.lt", O, "equal sets are smaller", "C04", "cmp (fun x y => decide (x ⊂ y)) s o", "cmp (fun x y => decide (x ⊆ y)) s o")
m("ofs-le", "OFS.le", O, "equal sets not allowed", "C04", "cmp (fun x y => decide (x ⊆ y)) s o", "cmp (fun x y => decide (x ⊂ y)) s o")
m("ofs-gt", "OFS.gt", O, "order reversed", "C04", "cmp (fun x y => decide (y ⊂ x)) s o", "cmp (fun x y => decide (x ⊂ y)) s o")
m("ofs-ge", "OFS.ge", O, "order reversed", "C04", "cmp (fun x y => decide (y ⊆ x)) s o", "cmp (fun x y => decide (x ⊆ y)) s o")
m("ofs-eq", "OFS.eq", O, "a subset is equal", "C04", "cmp (fun x y => decide (x = y)) s o", "cmp (fun x y => decide (x ⊆ y)) s o")

JS = "Model/Json.lean"
m("json-dec-order", "decText", JS, "digits reversed", "C71", "((Nat.digits 10 n).map (48 + ·)).reverse", "((Nat.digits 10 n).map (48 + ·))")
m("json-dec-zero", "decText", JS, "0 is the empty text", "C71", "if n = 0 then [48] else", "if n = 0 then [] else")
m("json-int-sign", "intText", JS, "sign lost", "C71", "| .negSucc n => 45 :: decText (n + 1)", "| .negSucc n => decText (n + 1)")
m("json-int-off", "intText", JS, "negative numbers one too large", "C71", "45 :: decText (n + 1)", "45 :: decText n")
m("json-quote", "escapeChar", JS, "quotes not escaped", "C71", "if c = 34 then [92, 34]", "if c = 34 then [34]")
m("json-backslash", "escapeChar", JS, "backslashes not escaped", "C71", "if c = 92 then [92, 92]", "if c = 92 then [92]")
m("json-newline", "escapeChar", JS, "newline written as a carriage return", "C71", "if c = 10 then [92, 110]", "if c = 10 then [92, 114]")
m("json-control", "escapeChar", JS, "control characters not escaped", "C71", "if 32 ≤ c ∧ c ≤ 126 then [c]", "if c ≤ 126 then [c]")
m("json-surrogate", "escapeChar", JS, "large code points truncated", "C71", "else hexEscape (55296 + (c - 65536) / 1024 % 1024) ++ hexEscape (56320 + (c - 65536) % 1024)", "else hexEscape c")
m("json-hex", "hexDigit", JS, "hexadecimal digits off by one", "C71", "else 87 + n", "else 88 + n")
m("json-hex-order", "hexEscape", JS, "digits exchanged", "C71", "hexDigit (n / 16 % 16), hexDigit (n % 16)]", "hexDigit (n % 16), hexDigit (n / 16 % 16)]")
m("json-bool", "boolText", JS, "true and false exchanged", "C71", "if b then [116, 114, 117, 101] else [102, 97, 108, 115, 101]", "if b then [102, 97, 108, 115, 101] else [116, 114, 117, 101]")
m("json-key-other", "keyText", JS, "other keys written as null", "C71", "| .other => Option.none", "| .other => some nullText")
m("json-complex-sep", "EncoderJ.default", JS, "parts of a complex number run together", "C71", "re ++ [32, 43, 32] ++ im ++ [106]", "re ++ im ++ [106]")
m("json-complex-real", "EncoderJ.default", JS, "real part only", "C71", "| .network => .text (re ++ [32, 43, 32] ++ im ++ [106])", "| .network => .text re")
m("json-complex-all", "EncoderJ.default", JS, "complex costs written", "C71", "    | _ => .error\n  | .frozenset _ =>", "    | _ => .text re\n  | .frozenset _ =>")
m("json-frozenset-inf", "EncoderJ.default", JS, "frozensets written by the encoder of infinite memory", "C71", "    | .infinite => .error\n    | _ => .members", "    | .infinite => .members\n    | _ => .members")
m("json-decimal-network", "EncoderJ.default", JS, "decimals written by the encoder of networks", "C71", "    | .network => .error\n    | _ => .text s", "    | .network => .text s\n    | _ => .text s")
m("json-join", "joinComma", JS, "comma left out", "C71", "s ++ [44, 32] ++ joinComma (t :: l)", "s ++ [32] ++ joinComma (t :: l)")
m("json-join-skip", "joinComma", JS, "every second element lost", "C71", "s ++ [44, 32] ++ joinComma (t :: l)", "s ++ [44, 32] ++ joinComma l")
m("json-colon", "memberText", JS, "colon left out", "C71", "strText k ++ [58, 32] ++ v", "strText k ++ [32, 32] ++ v")
m("json-key-raw", "memberText", JS, "keys not escaped", "C71", "strText k ++ [58, 32] ++ v", "34 :: k ++ [34, 58, 32] ++ v")
m("json-object-brackets", "objectText", JS, "objects in square brackets", "C71", "123 :: joinComma (l.map fun p => memberText p.1 p.2) ++ [125]", "91 :: joinComma (l.map fun p => memberText p.1 p.2) ++ [93]")
m("json-tuple", "PyJ.dumps", JS, "tuples rejected", "C71", "| .tuple l => (PyJ.dumpsList e l).map arrayText", "| .tuple _ => .error .typeError")
m("json-list-drop", "PyJ.dumpsList", JS, "elements that fail are skipped", "C71", "| .ok ss => .ok (s :: ss)", "| .ok ss => .ok ss")
m("json-dict-key", "PyJ.dumpsDict", JS, "entries with other keys skipped", "C71", "| Option.none => .error .typeError", "| Option.none => PyJ.dumpsDict e m")
m("json-nested-order", "nestedList", JS, "axes reversed", "C71", "fun idx => f (i :: idx)", "fun idx => f (idx ++ [i])")
m("json-nested-short", "nestedList", JS, "last entry of each axis lost", "C71", "(List.range d).map fun i => nestedList", "(List.range (d - 1)).map fun i => nestedList")
m("json-tensor-dims", "TensorJ.default", JS, "dimensions left out", "C71", "(.str keyDims, .tuple (t.dims.map fun d : ℕ => PyJ.int d)),", "(.str keyDims, .tuple []),")
m("json-tensor-array", "TensorJ.default", JS, "array left out", "C71", "| some a => nestedList a.shape a.get", "| some _ => .none")
m("json-tensor-tags", "TensorJ.default", JS, "tags left out", "C71", "(.str keyTags, .dict t.tags)]", "(.str keyTags, .dict [])]")
m("json-net-output", "NetworkJ.default", JS, "sparse indices as output", "C71", "(.str keyOutput, .frozenset N.output)", "(.str keyOutput, .frozenset N.sparse)")
m("json-net-tensors", "NetworkJ.default", JS, "first tensor left out", "C71", "N.tensors.map TensorJ.default", "N.tensors.tail.map TensorJ.default")
m("json-net-tags", "NetworkJ.default", JS, "tags written (repair)", "C71", "(.str keySparse, .frozenset N.sparse)]", "(.str keySparse, .frozenset N.sparse), (.str keyTags, .dict N.tags)]")
m("json-path", "pathJ", JS, "pairs exchanged", "C71", ".tuple [.int q.1, .int q.2]", ".tuple [.int q.2, .int q.1]")
m("json-base-cost", "ResultJ.base", JS, "time as cost", "C71", "(.str keyCost, r.cost)", "(.str keyCost, r.runtime)")
m("json-res-paths", "ResultJ.default", JS, "the whole path for every part", "C71", "| none => .dict (r.base ++ [(.str keyPaths, .list (r.disconnectedPaths.map pathJ))])", "| none => .dict (r.base ++ [(.str keyPaths, .list (r.disconnectedPaths.map fun _ => pathJ r.path))])")
m("json-res-slices", "ResultJ.default", JS, "slices left out", "C71", ", (.str keySlices, .frozenset s)])", "])")
m("json-res-encoder", "ResultJ.toJson", JS, "finite width written by the other encoder", "C71", "| some _ => r.default.dumps .finite", "| some _ => r.default.dumps .infinite")

RP = "Model/Report.lean"
m("rep-sig-five", "shownCost", RP, "five digits", "C72", "else roundSig 6 c", "else roundSig 5 c")
m("rep-sig-seven", "shownCost", RP, "seven digits", "C72", "else roundSig 6 c", "else roundSig 7 c")
m("rep-shown-exact", "shownCost", RP, "all digits for every type (repair)", "C72", "else roundSig 6 c", "else c")
m("rep-fixed-exchanged", "shownCost", RP, "types exchanged", "C72", "if fixed then roundPoint 308 c else roundSig 6 c", "if fixed then roundSig 6 c else roundPoint 308 c")
m("rep-sum-27", "decimalSum", RP, "27 digits", "C72", "roundSig 28 (a + x)", "roundSig 27 (a + x)")
m("rep-sum-last", "decimalSum", RP, "the last part only", "C72", "roundSig 28 (a + x)", "roundSig 28 x")
m("rep-sum-exact", "decimalSum", RP, "exact sums", "C72", "l.foldl (fun a x => roundSig 28 (a + x)) 0", "l.sum")
m("rep-sum-end", "decimalSum", RP, "rounded only at the end", "C72", "l.foldl (fun a x => roundSig 28 (a + x)) 0", "roundSig 28 l.sum")
m("rep-sig-shift", "roundSig", RP, "one digit less", "C72", "if x = 0 then 0 else roundEven (x / (10 : ℚ) ^ (Int.log 10 |x| + 1 - p)) * (10 : ℚ) ^ (Int.log 10 |x| + 1 - p)",
  "if x = 0 then 0 else roundEven (x / (10 : ℚ) ^ (Int.log 10 |x| + 2 - p)) * (10 : ℚ) ^ (Int.log 10 |x| + 2 - p)")
m("rep-sig-floor", "roundSig", RP, "digits cut off", "C72", "else roundEven (x / (10 : ℚ) ^ (Int.log 10 |x| + 1 - p)) *", "else ⌊x / (10 : ℚ) ^ (Int.log 10 |x| + 1 - p)⌋ *")
m("rep-sig-ceil", "roundSig", RP, "rounded up", "C72", "else roundEven (x / (10 : ℚ) ^ (Int.log 10 |x| + 1 - p)) *", "else ⌈x / (10 : ℚ) ^ (Int.log 10 |x| + 1 - p)⌉ *")
m("rep-sig-halfup", "roundSig", RP, "ties up", "C72", "else roundEven (x / (10 : ℚ) ^ (Int.log 10 |x| + 1 - p)) *", "else ⌊x / (10 : ℚ) ^ (Int.log 10 |x| + 1 - p) + 1 / 2⌋ *")
m("rep-sig-scale", "roundSig", RP, "not scaled back", "C72", " * (10 : ℚ) ^ (Int.log 10 |x| + 1 - p)\n", "\n")
m("rep-point-cut", "roundPoint", RP, "divided twice", "C72", "roundEven (x * 10 ^ k) / 10 ^ k", "roundEven (x * 10 ^ k) / 10 ^ k / 10 ^ k")
m("rep-printer-total", "costPrinter", RP, "exact sum of the printed costs", "C72", "⟨shownCost fixed, 0, decimalSum⟩", "⟨shownCost fixed, 0, List.sum⟩")
m("rep-printer-zero", "costPrinter", RP, "trivial paths cost 1", "C72", "⟨shownCost fixed, 0, decimalSum⟩", "⟨shownCost fixed, 1, decimalSum⟩")
m("rep-printer-same", "costPrinter", RP, "six digits for float1024 too", "C72", "⟨shownCost fixed, 0, decimalSum⟩", "⟨shownCost false, 0, decimalSum⟩")
m("rep-sampler", "SamplerOpts.optimize", SM, "the sampler ignores its type", "C72", "optimizeInfWith (costPrinter O.fixed)", "optimizeInfWith (costPrinter true)")
m("rep-inf-exact", "infAnnealWith", AN, "the current cost is printed", "C72", "⟨pr.shown o.1.core.minTotal, p⟩", "⟨pr.shown o.1.core.total, p⟩")
m("rep-fw-total", "fwTotalWith", AN, "cost of the first part", "C72", "⟨pr.total (done.map FwPartOf.cost), path,", "⟨(done.map FwPartOf.cost).headD pr.zero, path,")

SE = "Model/Session.lean"
m("ses-width-types", "Build.widthTypes", SE, "no float64 widths", "C73", '["float32", "float64", "float" ++ toString B.longBits]', '["float32", "float" ++ toString B.longBits]')
m("ses-cost-types", "Build.costTypes", SE, "float1024 always built", "C73", 'if B.mpfr then ["float1024"] else []', '["float1024"]')
m("ses-prob-unknown", "makeProb", SE, "unknown types not checked", "C73", 'if costType ∉ ["float32", "float64", "float128", "float1024"] then .error .notImplemented\n  else if', 'if')
m("ses-prob-built", "makeProb", SE, "types not built are ignored", "C73", "else if costType ∉ B.costTypes then .error .attributeError\n  else .ok ⟨kind", "else .ok ⟨kind")
m("ses-prob-default", "makeProb", SE, "float64 always", "C73", ".ok ⟨kind, costType⟩", '.ok ⟨kind, "float64"⟩')
m("ses-eq-beta", "ProbObj.eq", SE, "beta is not compared", "C73", ".ok (decide (b = b'))", ".ok true")
m("ses-eq-false", "ProbObj.eq", SE, "False for other classes (repair)", "C73", "| _, _ => .error .typeError", "| _, _ => .ok false")
m("ses-eq-type", "ProbObj.eq", SE, "cost types not compared", "C73", "if p.costType ≠ q.costType then .error .typeError\n    else match p.kind", "match p.kind")
m("ses-pickle-mh", "ProbObj.unpickle", SE, "mh becomes greedy", "C73", "| .mh b => ⟨.mh b, p.costType⟩", "| .mh _ => ⟨.greedy, p.costType⟩")
m("ses-inf-extra", "InfObj.init", SE, "wrong keywords accepted", "C73", "if extra then some (.error .typeError)                                              -- 62-63\n    else if", "if")
m("ses-inf-type", "InfObj.init", SE, "cost type not looked up", "C73", "else if m.costType ∉ B.costTypes then some (.error .attributeError)                 -- 69\n    else match", "else match")
m("ses-inf-other", "InfObj.init", SE, "ValueError for foreign models", "C73", "| _ => some (.error .notImplemented)                                                  -- 57-58", "| _ => some (.error .valueError)")
m("ses-inf-ignore", "InfObj.update", SE, "any cost type accepted", "C73", "if p.costType ≠ o.cmodel.costType then some (o, some .typeError)\n    else (o.opt.core.update g", "(o.opt.core.update g")
m("ses-inf-frozen", "InfObj.update", SE, "no move", "C73", "fun c => ({ o with opt := { o.opt with core := c } }, none)", "fun _ => (o, none)")
m("ses-inf-silent", "InfObj.update", SE, "no exception for other objects", "C73", "| none => some (o, some .typeError)", "| none => some (o, none)")
m("ses-inf-stop", "InfObj.session", SE, "ends after the first call", "C73", "| some (o', _) => o'.session g accept ps", "| some (o', _) => some o'")
m("ses-inf-ctree", "InfObj.ctree", SE, "the best tree", "C73", "getCtree o.opt.cache o.opt.core.ctree", "getCtree o.opt.cache o.opt.core.minCtree")
m("ses-inf-min", "InfObj.minCtree", SE, "the current tree", "C73", "getCtree o.opt.cache o.opt.core.minCtree", "getCtree o.opt.cache o.opt.core.ctree")
m("ses-inf-cost", "InfObj.totalCost", SE, "the best cost", "C73", 'shownCost (o.cmodel.costType == "float1024") o.opt.core.totalCost', 'shownCost (o.cmodel.costType == "float1024") o.opt.core.minTotal')
m("ses-inf-fixed", "InfObj.minTotalCost", SE, "six digits for float1024", "C73", 'shownCost (o.cmodel.costType == "float1024") o.opt.core.minTotal', 'shownCost false o.opt.core.minTotal')
m("ses-inf-dis", "InfObj.disableSharedInds", SE, "negated", "C73", "Bool := o.opt.core.disableShared", "Bool := !o.opt.core.disableShared")
m("ses-inf-build-dis", "InfObj.build", SE, "option not passed on", "C73", "InfOpt.make (c.model t.core.dims) t.core seed dis", "InfOpt.make (c.model t.core.dims) t.core seed false")
m("ses-skip-any", "skipTooWide", SE, "all indices of the tensor", "C73", "m.width log2 enum (enum (xs ∩ skip)) t.dims", "m.width log2 enum (enum xs) t.dims")
m("ses-skip-le", "skipTooWide", SE, "at the limit too", "C73", "if m.maxWidth < w then", "if m.maxWidth ≤ w then")
m("ses-skip-first", "skipTooWide", SE, "the first tensor only", "C73", ".ok true else skipTooWide log2 enum m t skip ps", ".ok true else .ok false")
m("ses-fw-skip", "FwObj.build", SE, "skipped indices not passed on", "C73", "(if skip = ∅ then none else some sk)", "none")
m("ses-fw-new", "FwObj.build", SE, "one more new slice", "C73", "t.core k.maxNew k.seed", "t.core (k.maxNew + 1) k.seed")
m("ses-fw-skipset", "FwObj.init", SE, "unknown skipped indices not checked", "C73", "if ¬ skip ⊆ t.indsOrder.toFinset then some (.error .valueError)                   -- 98-99\n      else match", "match")
m("ses-fw-wide", "FwObj.init", SE, "skipped indices that do not fit accepted", "C73", "| .ok true => some (.error .valueError)                                         -- 104-109\n        | .ok false => FwObj.build", "| .ok _ => FwObj.build")
m("ses-fw-method", "FwObj.init", SE, "any slice update", "C73", 'else if k.sliceUpdate ≠ "greedy" then some (.error .notImplemented)                 -- 79-80\n    else if', "else if")
m("ses-fw-widthtype", "FwObj.init", SE, "width type not looked up", "C73", "m.costType ∉ B.costTypes ∨ m.widthType ∉ B.widthTypes", "m.costType ∉ B.costTypes")
m("ses-fw-ignore", "FwObj.update", SE, "any cost type accepted", "C73", "if p.costType ≠ o.cmodel.costType then .ok (o, some .typeError)\n    else match", "match")
m("ses-fw-always", "FwObj.update", SE, "slices always updated", "C73", "(accept p.kind) updateSlices with", "(accept p.kind) true with")
m("ses-fw-slices", "FwObj.slices", SE, "the best slices", "C73", "o.opt.core.inf.ctree.nInds o.opt.core.slices", "o.opt.core.inf.ctree.nInds o.opt.core.minSlices")
m("ses-fw-minslices", "FwObj.minSlices", SE, "the current slices", "C73", "o.opt.core.inf.ctree.nInds o.opt.core.minSlices", "o.opt.core.inf.ctree.nInds o.opt.core.slices")
m("ses-fw-skipslices", "FwObj.skipSlices", SE, "always empty", "C73", "Finset ι := o.opt.skip", "Finset ι := (∅ : Finset ι)")
m("ses-fw-ctree", "FwObj.ctree", SE, "the best tree", "C73", "getCtree o.opt.cache o.opt.core.inf.ctree", "getCtree o.opt.cache o.opt.core.inf.minCtree")
m("ses-fw-cost", "FwObj.minTotalCost", SE, "the current cost", "C73", 'shownCost (o.cmodel.costType == "float1024") o.opt.core.inf.minTotal', 'shownCost (o.cmodel.costType == "float1024") o.opt.core.inf.totalCost')

PG = "Model/Program.lean"
m("prog-main-format", "mainParams", PG, "None stays None", "C74", '| some none => .ok (dset (optimizerParams.zip args) "output_format" (some json))', "| some none => .ok (optimizerParams.zip args)")
m("prog-main-always", "mainParams", PG, "always json", "C74", "| some (some _) => .ok (optimizerParams.zip args)", '| some (some _) => .ok (dset (optimizerParams.zip args) "output_format" (some json))')
m("prog-main-few", "mainParams", PG, "too few arguments accepted", "C74", "| none => .error .keyError", "| none => .ok (optimizerParams.zip args)")
m("prog-names", "tensorNames", PG, "names reversed", "C74", "| .ok (ts, _) => ts.map Prod.fst", "| .ok (ts, _) => (ts.map Prod.fst).reverse")
m("prog-tags", "rowsNet", PG, "no tags", "C74", "tsTags := names.map fun n => some (.leaf [(.str keyName, .str n)])", "tsTags := names.map fun _ => none")
m("prog-output", "rowsNet", PG, "output indices lost", "C74", "  output := N.output\n  sparse := N.sparse\n  hyperMap := none", "  output := ∅\n  sparse := N.sparse\n  hyperMap := none")
m("prog-sparse", "rowsNet", PG, "sparse indices lost", "C74", "  output := N.output\n  sparse := N.sparse\n  hyperMap := none", "  output := N.output\n  sparse := ∅\n  hyperMap := none")
m("prog-dims", "rowsNet", PG, "every dimension 2", "C74", "dims := dget N.dims", "dims := fun _ => some 2")
m("prog-tokens", "loadText", PG, "the tokens are exchanged", "C74", "| .ok (.inds rows) => loadRowsNet A outTok sparseTok rows", "| .ok (.inds rows) => loadRowsNet A sparseTok outTok rows")
m("prog-rec-dim", "ArrNet.toRec", PG, "dimension 0 for every axis", "C74", "⟨xs, xs.map fun x => (N.dims x).getD 0, none⟩", "⟨xs, xs.map fun _ => 0, none⟩")
m("prog-rec-dims", "ArrNet.toRec", PG, "no dimensions", "C74", "(uniqueEverseen N.tsInds.flatten).filterMap fun x => (N.dims x).map fun d => (x, d)", "[]")
m("prog-rec-sparse", "ArrNet.toRec", PG, "no sparse indices for the search", "C74", "  output := N.output\n  sparse := N.sparse\n  dims :=", "  output := N.output\n  sparse := ∅\n  dims :=")
m("prog-rec-output", "ArrNet.toRec", PG, "no output indices for the search", "C74", "  output := N.output\n  sparse := N.sparse\n  dims :=", "  output := ∅\n  sparse := N.sparse\n  dims :=")
m("prog-tags-swap", "tagsJ", PG, "x and y exchanged", "C74", "[(.str [120], .dict (tagsJ x)), (.str [121], .dict (tagsJ y))]", "[(.str [120], .dict (tagsJ y)), (.str [121], .dict (tagsJ x))]")
m("prog-j-dims", "ArrNet.toJ", PG, "dimension 0 in the output", "C74", "t.1.map fun x => (N.dims x).getD 0, t.2.1.map", "t.1.map fun _ => 0, t.2.1.map")
m("prog-j-output", "ArrNet.toJ", PG, "sparse indices as output", "C74", "output := (enum N.output).map", "output := (enum N.sparse).map")
m("prog-j-tags", "ArrNet.toJ", PG, "tags of tensors lost", "C74", "(t.2.2.map tagsJ).getD []⟩", "[]⟩")
m("prog-j-fuse", "ArrNet.toJ", PG, "no fuse path", "C74", "| some p => [(.str keyFusePath, pathJ p)]", "| some _ => []")
m("prog-cost-zero", "costJ", PG, "zero if one part is a single tensor", "C74", "if paths.all List.isEmpty then", "if paths.any List.isEmpty then")
m("prog-cost-always", "costJ", PG, "always a decimal", "C74", "if paths.all List.isEmpty then .int 0 else .decimal (decimal c)", ".decimal (decimal c)")
m("prog-part-cost", "partCostJ", PG, "always zero", "C74", "if p.isEmpty then .int 0 else .decimal (decimal c)", ".int 0")
m("prog-inf-path", "infResultJ", PG, "path reversed", "C74", "  path := r.path\n  disconnectedCosts := List.zipWith (partCostJ part) r.paths r.costs\n  disconnectedPaths := r.paths\n  finite := none", "  path := r.path.reverse\n  disconnectedCosts := List.zipWith (partCostJ part) r.paths r.costs\n  disconnectedPaths := r.paths\n  finite := none")
m("prog-fw-none", "fwResultJ", PG, "no slices", "C74", "finite := some (r.slicesList.map fun s => (enum s).map fun x : ℕ => .int x, (enum r.slices).map fun x : ℕ => .int x)", "finite := some ([], [])")
m("prog-fw-slices", "fwResultJ", PG, "slices of the first part", "C74", "(enum r.slices).map fun x : ℕ => .int x)", "(enum (r.slicesList.headD ∅)).map fun x : ℕ => .int x)")
m("prog-run-check", "runApp", PG, "options checked by writing", "C74", "dumpResults before { dump with checkOnly := true, extra := false }", "dumpResults before { dump with checkOnly := false, extra := false }")
m("prog-run-late", "runApp", PG, "options of the caller ignored at the end", "C74", "dumpResults after { dump with checkOnly := false, extra := false }", "dumpResults after { dump with checkOnly := true, extra := false }")
m("prog-run-first", "runApp", PG, "one result only", "C74", "(N.toJ enum) (rs.zipIdx.map fun r", "(N.toJ enum) ((rs.take 1).zipIdx.map fun r")
m("prog-run-order", "runApp", PG, "results reversed", "C74", "(N.toJ enum) (rs.zipIdx.map fun r", "(N.toJ enum) (rs.reverse.zipIdx.map fun r")
m("prog-method", "program", PG, "any method", "C74", "if a.method ≠ saText then (sys, some (.error .noModule))\n  else if", "if")
m("prog-which", "program", PG, "apps exchanged", "C74", "else if finiteWidthModule a.maxWidth then", "else if ¬ finiteWidthModule a.maxWidth then")
m("prog-projs", "program", PG, "n_projs not passed on", "C74", "optimizeInfWith (costPrinter a.fixed) E.sa E.par N a.betas a.nSteps a.nProjs", "optimizeInfWith (costPrinter a.fixed) E.sa E.par N a.betas a.nSteps none")
m("prog-seeds", "program", PG, "one seed", "C74", "a.nSteps a.nProjs a.nJobs a.seeds sched sys)", "a.nSteps a.nProjs a.nJobs (a.seeds.take 1) sched sys)")
m("prog-width", "program", PG, "width 0", "C74", "N E.log2W (E.width a.maxWidth)", "N E.log2W 0")
m("anneal-slices-foreign", "fwTotalWith", AN, "slices of each part joined into every part", "C43", "done.map FwPartOf.cost, paths, sls, ss.foldl", "done.map FwPartOf.cost, paths, sls.map fun _ => ss.foldl (· ∪ ·) s, ss.foldl")

FC = "Model/FloatClass.lean"
m("flt-format", "mpfr1024", FC, "1023 bits", "C75", "⟨1024, -2 ^ 30, 2 ^ 30 - 2⟩", "⟨1023, -2 ^ 30, 2 ^ 30 - 2⟩")
m("flt-over", "MpfFormat.round", FC, "infinity has no sign", "C75", "< Int.log 2 |roundTo F.prec x| then .inf (decide (x < 0))", "< Int.log 2 |roundTo F.prec x| then .inf false")
m("flt-over-edge", "MpfFormat.round", FC, "infinity one power early", "C75", "if F.hi < Int.log 2 |roundTo F.prec x|", "if F.hi ≤ Int.log 2 |roundTo F.prec x|")
m("flt-under", "MpfFormat.round", FC, "flush to zero", "C75", "else .fin (decide (x < 0)) ((2 : ℚ) ^ F.lo)", "else .fin (decide (x < 0)) 0")
m("flt-under-tie", "MpfFormat.round", FC, "half of the least number is rounded up", "C75", "if |x| ≤ (2 : ℚ) ^ (F.lo - 1)", "if |x| < (2 : ℚ) ^ (F.lo - 1)")
m("flt-round-sign", "MpfFormat.round", FC, "the sign is lost", "C75", "else .fin (decide (x < 0)) |roundTo F.prec x|", "else .fin false |roundTo F.prec x|")
m("flt-neg", "Mpf.neg", FC, "infinity is not negated", "C75", "  | .inf s => .inf (!s)\n  | .fin s m => .fin (!s) m", "  | .inf s => .inf s\n  | .fin s m => .fin (!s) m")
m("flt-abs", "Mpf.abs", FC, "the sign of infinity stays", "C75", "| .inf _ => .inf false", "| .inf s => .inf s")
m("flt-add-inf", "Mpf.add", FC, "inf - inf is inf", "C75", "if s = t then .inf s else .nan false", ".inf s")
m("flt-add-zero", "Mpf.add", FC, "-0 + 0 is -0", "C75", ".fin (s && t) 0", ".fin (s || t) 0")
m("flt-sub-swap", "Mpf.sub", FC, "operands exchanged", "C75", "else F.round (signed s m - signed t n)", "else F.round (signed t n - signed s m)")
m("flt-sub-inf", "Mpf.sub", FC, "x - inf is inf", "C75", "| .fin _ _, .inf t => .inf (!t)", "| .fin _ _, .inf t => .inf t")
m("flt-mul-zero", "Mpf.mul", FC, "inf * 0 is inf", "C75", "| .inf s, .fin t n => if n = 0 then .nan false else .inf (s != t)", "| .inf s, .fin t _ => .inf (s != t)")
m("flt-mul-sign", "Mpf.mul", FC, "0 * -1 is 0", "C75", "if m = 0 ∨ n = 0 then .fin (s != t) 0", "if m = 0 ∨ n = 0 then .fin false 0")
m("flt-div-zero", "Mpf.div", FC, "1 / 0 is NaN", "C75", "if n = 0 then if m = 0 then .nan false else .inf (s != t)", "if n = 0 then .nan false")
m("flt-div-inf", "Mpf.div", FC, "1 / inf is NaN", "C75", "| .fin s _, .inf t => .fin (s != t) 0", "| .fin _ _, .inf _ => .nan false")
m("flt-pow", "Mpf.pow", FC, "the sign of the exponent is lost", "C75", "(signed t n).num) else", "n.num) else")
m("flt-ieee-over", "Mpf.toIeee", FC, "no overflow", "C75", "≤ (roundEven (m / (2 : ℚ) ^ ieeeUlp F m) : ℚ) * (2 : ℚ) ^ ieeeUlp F m then .inf s", "≤ (roundEven (m / (2 : ℚ) ^ ieeeUlp F m) : ℚ) * (2 : ℚ) ^ ieeeUlp F m then .fin s m")
m("flt-ieee-ulp", "ieeeUlp", FC, "denormal numbers lose a bit", "C75", "(2 - F.emax - F.prec)", "(3 - F.emax - F.prec)")
m("flt-float-once", "Mpf.toFloat", FC, "rounded once", "C75", "(x.toIeee float128).toIeee float64", "x.toIeee float64")
m("flt-int-sign", "asDouble", FC, "the sign of integers is lost", "C75", "match (Mpf.fin (decide (n < 0)) (|n| : ℤ)).toIeee float64 with", "match (Mpf.fin false (|n| : ℤ)).toIeee float64 with")
m("flt-int-big", "asDouble", FC, "large integers are infinity", "C75", "    | .fin s m => some (.fin s m)\n    | _ => none", "    | x => some x")
m("flt-str-zero", "asDouble", FC, "texts are zero in operators", "C75", "  | .str _ => none", "  | .str _ => some (.fin false 0)")
m("flt-digit-upper", "digitVal", FC, "upper case digits are 10 less", "C75", "some (c.toNat - 55)", "some (c.toNat - 65)", note="upper case hexadecimal digits are read but never written")
m("flt-digit-upper-again", "digitVal", FC, "upper case digits are 10 less", "C75", "some (c.toNat - 55)", "some (c.toNat - 65)", tightened=["C75_read_case"])
m("flt-case-x", "takeBase", FC, "0X is not hexadecimal", "C75", "(c = 'x' ∨ c = 'X')", "(c = 'x')")
m("flt-case-p", "expFactor", FC, "P is not an exponent", "C75", "(c = 'p' ∨ c = 'P')", "(c = 'p')")
m("flt-case-E", "expFactor", FC, "E is not an exponent", "C75", "(c = 'e' ∨ c = 'E')", "(c = 'e')")
m("flt-case-nan", "startsWith", FC, "NaN only in lower case", "C75", "(cs.take w.length).map lowerC = w", "cs.take w.length = w")
m("flt-sign-read", "takeSign", FC, "minus ignored", "C75", "| '-' :: cs => (true, cs)", "| '-' :: cs => (false, cs)")
m("flt-exp-sign", "expAfter", FC, "the exponent is never negative", "C75", "then -(digsVal 10 (takeDigs 10 (takeSign cs).2).1 : ℤ) else", "then (digsVal 10 (takeDigs 10 (takeSign cs).2).1 : ℤ) else")
m("flt-exp-base", "expFactor", FC, "p is a power of 16", "C75", "then (2 : ℚ) ^ expAfter cs", "then (16 : ℚ) ^ expAfter cs")
m("flt-exp-e", "expFactor", FC, "e not read", "C75", "base = 10 ∧ (c = 'e' ∨ c = 'E')", "base = 10 ∧ c = 'E'")
m("flt-frac", "readMagnitude", FC, "digits after the point do not count", "C75", "(base : ℚ) ^ (takeFrac base (takeDigs base cs).2).1.length *", "(base : ℚ) ^ (0 : ℕ) *")
m("flt-base", "takeBase", FC, "0x always read as decimal", "C75", "then (16, rest) else (10, cs)", "then (10, rest) else (10, cs)")
m("flt-read-none", "readFloat", FC, "no number is NaN", "C75", "| none => .fin false 0\n  | some q", "| none => .nan false\n  | some q")
m("flt-read-empty", "readText", FC, "the empty text is 0", "C75", "  | [] => .nan false\n  | _ :: _ =>\n    if startsWith", "  | [] => .fin false 0\n  | _ :: _ =>\n    if startsWith")
m("flt-read-inf", "readText", FC, "infinity has no sign", "C75", "      .inf (takeSign (s.dropWhile isSpaceC)).1", "      .inf false")
m("flt-digits10", "digits10", FC, "307 digits", "C75", "def digits10 : ℕ := 308", "def digits10 : ℕ := 307")
m("flt-text-frac", "Mpf.text", FC, "no point", "C75", "      ['.'] ++ (fixedDigits", "      [','] ++ (fixedDigits")
m("flt-text-sign", "Mpf.text", FC, "no sign", "C75", "    signText s ++ (decDigits", "    (decDigits")
m("flt-hexexp", "hexExp", FC, "the exponent is one less", "C75", "4 * (Int.log 2 m / 4)", "4 * (Int.log 2 m / 4) - 1", note="the digits before the point would not fit")
m("flt-hexdigits", "hexDigits", FC, "digits too few", "C75", "def hexDigits (k : ℕ) (m : ℚ) : List ℕ := fixedDigits 16 (k + 1)", "def hexDigits (k : ℕ) (m : ℚ) : List ℕ := fixedDigits 16 k")
m("flt-dump-zero", "Mpf.dump", FC, "-0 loses its sign", "C75", "if m = 0 then signText s ++ ['0', 'x', '0'", "if m = 0 then ['0', 'x', '0'")
m("flt-dump-point", "pointText", FC, "no point", "C75", "  | ds => '.' :: ds.map digitChar", "  | ds => ds.map digitChar")
m("flt-dump-exp", "expText", FC, "no minus", "C75", "(if e < 0 then '-' else '+')", "'+'")
m("flt-new-none", "newFloat", FC, "without arguments 0", "C75", "| [] => .ok (.nan false)                                     -- 45", "| [] => .ok (.fin false 0)                                     -- 45")
m("flt-new-self", "newFloat", FC, "copies through a float", "C75", "| [.self x] => .ok x", "| [.self x] => .ok x.toFloat")
m("flt-operand-self", "operand", FC, "float1024 through a float", "C75", "  | .self x => .ok x\n  | a =>", "  | .self x => .ok x.toFloat\n  | a =>")
m("flt-arith-r", "pyArithR", FC, "reflected operators exchange their operands", "C75", ".ok (o.run F y x)", ".ok (o.run F x y)")
m("flt-op-run", "ArithOp.run", FC, "division multiplies", "C75", "| .div => Mpf.div F", "| .div => Mpf.mul F")
m("flt-cmp-run", "CmpOp.run", FC, "> is >=", "C75", "| .gt => Mpf.gt", "| .gt => Mpf.ge")
m("flt-unpickle", "unpickleFloat", FC, "base 10", "C75", "readText F true s", "readText F false s")
m("flt-inplace-new", "pyInplace", FC, "the object is not changed", "C75", "(h.set i (o.run F (h.getD i (.nan false)) y) ++", "(h ++")
m("flt-inplace-same", "pyInplace", FC, "the name refers to the old object", "C75", "++ [o.run F (h.getD i (.nan false)) y], h.length)", "++ [o.run F (h.getD i (.nan false)) y], i)")

BL = "Spec/Balance.lean"
m("bal-coin-bias", "getCtreeNN", I, "the coin is not fair", "C76", "if n % 2 ≠ 0 then (some (posA, posC, p0, p1), s)", "if n % 4 ≠ 0 then (some (posA, posC, p0, p1), s)")
m("bal-coin-none", "getCtreeNN", I, "always the first child stays", "C76", "if n % 2 ≠ 0 then (some (posA, posC, p0, p1), s)", "if True then (some (posA, posC, p0, p1), s)")
m("bal-mh-always", "probMH", "Model/Prob.lean", "worse moves accepted with the probability of better ones", "C76", "if delta ≤ 0 then 1 else (1 + delta", "if delta ≤ 0 then (1 + delta / old) ^ beta else (1 + delta")
m("bal-mh-exp", "probMH", "Model/Prob.lean", "the old rule exp(-beta delta / old)", "C76", "(1 + delta / old) ^ (-beta)", "Real.exp (-beta * delta / old)")
m("bal-total-stale", "Walk.body", I, "the total of the walk is not updated", "C76", "      total := w.total + delta }", "      total := w.total }")
m("bal-uniform-twice", "Walk.body", I, "accepts at u/2", "C76", "if u ≤ prob delta w.total then ", "if u ≤ prob (delta + delta) w.total then ")
m("bal-once-stay", "Walk.once", BL, "an iteration does nothing", "C76", "Walk.body g m prob { w with o := { w.o with prng := s } } a c d e", "{ w with o := { w.o with prng := s }, posB := a }")
m("bal-step-one", "Walk.stepChance", BL, "all integers as one", "C76", "volume {u : ℝ | u ∈ Set.Ico 0 1 ∧ w.stepTree m prob n u = T}", "volume {u : ℝ | u ∈ Set.Ico 0 1 ∧ w.stepTree m prob 0 u = T}")
m("bal-leaf", "InfOpt.updateChance", BL, "always the leaf 0", "C76", "o.leafChance M m prob T (n % o.ctree.tree.nLeaves)", "o.leafChance M m prob T 0")

RE = "Spec/Reach.lean"
m("reach-coin-none", "getCtreeNN", I, "always the first child stays, so some trees are never reached", "C77", "if n % 2 ≠ 0 then (some (posA, posC, p0, p1), s)", "if true then (some (posA, posC, p0, p1), s)")
m("reach-mean-min", "Walk.mean", RE, "the minimum is not recorded", "C77", "  | 0, w => f (w.o.updateMin.withPrng ())", "  | 0, w => f (w.o.withPrng ())")
m("reach-mean-one", "Walk.mean", RE, "all integers as one", "C77", "Walk.mean M m prob f k (Walk.once drawPrng m prob (w.withPrng (n, u)))", "Walk.mean M m prob f k (Walk.once drawPrng m prob (w.withPrng (0, u)))")
m("reach-leaf", "InfOpt.mean", RE, "always the leaf 0", "C77", "o.leafMean M m prob f (n % o.ctree.tree.nLeaves)", "o.leafMean M m prob f 0")
m("reach-mean-norm", "InfOpt.mean", RE, "not divided by the number of integers", "C77", "  (M : ENNReal)⁻¹ * ∑ n ∈ Finset.range M, o.leafMean", "  ∑ n ∈ Finset.range M, o.leafMean")
m("reach-means-first", "InfOpt.means", RE, "only the first update counts", "C77", "o.mean M m prob (InfOpt.means M m f probs)", "o.mean M m prob f")
m("reach-greedy", "probGreedy", "Model/Prob.lean", "accepts everything", "C77", "  if delta ≤ 0 then 1 else 0", "  if delta ≤ 0 then 1 else 1")
m("reach-same-leaf", "PTree.SameTree", RE, "all leaves are the same", "C77", "  | leaf (p : ℕ) : SameTree (.leaf p) (.leaf p)", "  | leaf (p q : ℕ) : SameTree (.leaf p) (.leaf q)")
m("reach-min-worse", "InfOpt.updateMin", I, "the minimum is replaced by greater costs", "C77", "if o.totalCost < o.minTotal then", "if o.minTotal < o.totalCost then")
m("reach-no-climb", "Walk.body", I, "the walk stays at the contraction when it accepts", "C77", "      posB := posA\n      total := w.total + delta }", "      posB := w.posB\n      total := w.total + delta }")
m("prog-rec-dim-again", "ArrNet.toRec", PG, "dimension 0 for every axis", "C74", "⟨xs, xs.map fun x => (N.dims x).getD 0, none⟩", "⟨xs, xs.map fun _ => 0, none⟩", tightened=["C74_record"])
m("prog-j-fuse-again", "ArrNet.toJ", PG, "no fuse path", "C74", "| some p => [(.str keyFusePath, pathJ p)]", "| some _ => []", tightened=["C74_infinite_object", "C74_finite_object"])
m("prog-part-cost-again", "partCostJ", PG, "always zero", "C74", "if p.isEmpty then .int 0 else .decimal (decimal c)", ".int 0", tightened=["C74_infinite_object", "C74_finite_object"])
m("prog-part-cost-all", "partCostJ", PG, "always a decimal", "C74", "if p.isEmpty then .int 0 else .decimal (decimal c)", ".decimal (decimal c)")
m("flt-cmp-run-again", "CmpOp.run", FC, "> is >=", "C75", "| .gt => Mpf.gt", "| .gt => Mpf.ge", tightened=["C75_compare"])

FWM = "Model/FiniteWidth.lean"
RM = "Spec/Roomy.lean"
m("room-lt", "FwWalk.body", FWM, "a tensor of exactly the limit does not fit", "C78", "  if newSlicedWidthB ≤ wm.maxWidth then\n    -- 188-225", "  if newSlicedWidthB < wm.maxWidth then\n    -- 188-225")
m("room-visit-le", "sliceVisit", FWM, "tensors of exactly the limit are sliced", "C78", "  if wm.maxWidth < width tpos then\n", "  if wm.maxWidth ≤ width tpos then\n")
m("room-draw", "sliceVisit", FWM, "the shuffle is drawn for tensors that fit", "C78", "    else st\n  else st", "    else st\n  else (st.1, (g.shuffle st.2 []).2)")
m("room-total", "FwWalk.body", FWM, "total not updated", "C78", "            posB := posA\n            total := w.total + delta }", "            posB := posA\n            total := w.total }")
m("room-min-le", "FwOpt.updateMin", FWM, "ties replace the best tree", "C78", "  if o.inf.totalCost < o.inf.minTotal then\n    { o with inf", "  if o.inf.totalCost ≤ o.inf.minTotal then\n    { o with inf")
m("room-fw-us", "FwOpt.updateSlices", FWM, "slices are looked for although there are none", "C78", "  if updateSlices && decide (o.slices ≠ ∅) then", "  if updateSlices then")
m("room-kept-out", "keptOf", RM, "outputs are not kept", "C78", "(out ∪ (Finset.range n \\ S).biUnion inds)", "((Finset.range n \\ S).biUnion inds)")
m("room-kept-all", "Roomy", RM, "only pairs of tensors", "C78", "  ∀ S ⊆ Finset.range n, wm.width (keptOf inds out n S) ≤ wm.maxWidth", "  ∀ S ⊆ Finset.range n, S.card ≤ 2 → wm.width (keptOf inds out n S) ≤ wm.maxWidth")
m("room-net-single", "NetworkRec.Roomy", RM, "only single tensors", "C78", "  ∀ u : Term, u.tensors.Nodup →", "  ∀ u : Term, u.tensors.length = 1 →")
m("room-unsliced", "InfResultOf.unsliced", RM, "one set of slices too few", "C78", "List.replicate r.paths.length ∅, ∅⟩", "List.replicate (r.paths.length - 1) ∅, ∅⟩")
m("room-wide-moves", "FwWalk.body", FWM, "wide moves change the tree", "C79", "  else\n    .ok { o := { o with inf := { o.inf with\n            cost := propagate", "  else\n    .ok { o := { o with inf := { o.inf with\n            ctree := { c with tree := c.tree.swapWithNN posE }, cost := propagate")
m("room-exchange-one", "PTree.under", RM, "only one of the two exchanges", "C79", "[d.leaves.toFinset ∪ S, e.leaves.toFinset ∪ S]", "[d.leaves.toFinset ∪ S]")
m("room-exchange-left", "PTree.exchanges", RM, "no exchanges below", "C79", " ++ l.exchanges ++ r.exchanges", "")
m("room-blocked-le", "Blocked", RM, "equal to the limit counts as too wide", "C79", "def Blocked [LT W] (wm : WidthModel W) (inds : ℕ → ISet) (out : ISet) (n : ℕ) (S : ISet) (t : PTree) : Prop :=\n  ∀ X ∈ t.exchanges, wm.maxWidth < wm.width", "def Blocked [LE W] (wm : WidthModel W) (inds : ℕ → ISet) (out : ISet) (n : ℕ) (S : ISet) (t : PTree) : Prop :=\n  ∀ X ∈ t.exchanges, wm.maxWidth ≤ wm.width")
RPM = "Model/RandomPath.lean"
RD = "Props/RandomDraw.lean"
m("draw-index-zero", "rcLoop", RPM, "the index is not chosen at random", "C80", "let av := swapLast avail r.1", "let av := swapLast avail 0")
m("draw-first-two", "rcLoop", RPM, "the first two candidates are contracted", "C80", "match cand[q.1.1]?, cand[q.1.2]? with", "match cand[0]?, cand[1]? with")
m("draw-first-one", "rcLoop", RPM, "the first candidate is always contracted", "C80", "match cand[q.1.1]?, cand[q.1.2]? with", "match cand[0]?, cand[if q.1.2 = 0 then q.1.1 else q.1.2]? with")
m("draw-groups-reversed", "groupInds", RPM, "components in reverse order", "C80", "(uniqueEverseen ((List.range m).map col)).map", "(uniqueEverseen ((List.range m).map col)).reverse.map")
m("draw-stop-early", "rcLoop", RPM, "the loop ends with the first index that is used up", "C80", "rcLoop g fuel r.2 st av.dropLast contracted path", "some (.ok (r.2, st, path))")
m("draw-spec-le", "DrawnPaths", RD, "equal positions allowed", "C80", "  ord : ∀ p ∈ paths, ∀ e ∈ p, e.1 < e.2", "  ord : ∀ p ∈ paths, ∀ e ∈ p, e.1 ≤ e.2")
m("draw-spec-gt", "DrawnPaths", RD, "larger position first", "C80", "  ord : ∀ p ∈ paths, ∀ e ∈ p, e.1 < e.2", "  ord : ∀ p ∈ paths, ∀ e ∈ p, e.2 < e.1")
m("draw-spec-free", "DrawnPaths", RD, "tensors need not share an index", "C80", "  share : ∀ p ∈ paths, ∀ t ∈ trace (initTerms tsInds.length) p, ∃ a b, t = .pair a b ∧ Share tsInds a b", "  share : ∀ p ∈ paths, ∀ t ∈ trace (initTerms tsInds.length) p, ∃ a b, t = .pair a b")
m("draw-spec-open", "DrawnPaths", RD, "paths may stop early", "C80", "  joined : ∀ i j x, i ≠ j → Holds", "  joined : ∀ i j x, i = j → Holds")
m("draw-spec-order", "DrawnPaths", RD, "order of components turned round", "C80", "comp x' = comp x ∧ tsInds.flatten.idxOf x' < tsInds.flatten.idxOf y\n\n/-- The numbers", "comp x' = comp x ∧ tsInds.flatten.idxOf y < tsInds.flatten.idxOf x'\n\n/-- The numbers")

SRN = "Spec/Rename.lean"
PBM = "Model/PathBuild.lean"
m("ren-order-set", "PyTree.ofPath", PBM, "the order of the indices is that of a set", "C81", "          let order := uniqueEverseen ts.flatten                                   -- 225", "          let order := enum ts.flatten.toFinset")
m("ren-shared-error", "sharedLoop", PBM, "the exception depends on which index is first", "C81", "      sharedLoop r hc' (if 0 < hc' s then insert s iz else iz)\n    else .error .assertionError", "      sharedLoop r hc' (if 0 < hc' s then insert s iz else iz)\n    else .error (if r = [] then .assertionError else .keyError)")
m("ren-output-first", "outputOf", PBM, "only the first of the output indices counts", "C81", "  | some l => .ok (l.toFinset ∩ (uniqueEverseen used).toFinset)                    -- 149, 152", "  | some l => .ok ((l.take 1).toFinset ∩ (uniqueEverseen used).toFinset)")
m("ren-inds-take", "indsLoop", PBM, "one index of an intermediate tensor is kept", "C81", "Function.update I tz (some (enum iz))", "Function.update I tz (some ((enum iz).take 1))")
m("ren-group-colour", "groupInds", RPM, "components in the order of their colours", "C81", "(uniqueEverseen ((List.range m).map col)).map fun c =>", "((List.range m).filter fun c => c ∈ (List.range m).map col).map fun c =>")
m("ren-colour-late", "colorInds", RPM, "all colours but the first are merged", "C81", "      let ys := colors.biUnion c2i", "      let ys := (colors.erase c).biUnion c2i")
m("ren-kept-first-tensor", "contractIndsLoop", "Model/Contract.lean", "kept indices in the order of the first tensor", "C81", "match tensordotInds xs ys (enum (keptInds hc out xs ys)) with", "match tensordotInds xs ys (xs.filter (· ∈ keptInds hc out xs ys)) with")
m("ren-kept-all", "keptInds", "Model/Contract.lean", "all shared indices are kept", "C81", "  (xs.toFinset ∩ ys.toFinset).filter (fun x => 1 < hc x) ∪ (out ∩ (xs.toFinset ∩ ys.toFinset))", "  xs.toFinset ∩ ys.toFinset")
m("ren-spec-sparse", "NetworkRec.rename", SRN, "sparse indices are dropped", "C81", "N.output.image f, N.sparse.image f,", "N.output.image f, ∅,")
m("ren-spec-dims", "NetworkRec.rename", SRN, "all dimensions become 2", "C81", "N.dims.map fun e => (f e.1, e.2)⟩", "N.dims.map fun e => (f e.1, 2)⟩")
m("ren-spec-seed", "SaEnv.withSets", SRN, "another seed", "C81", "  prngSeed := E.prngSeed", "  prngSeed := fun s => E.prngSeed (s + 1)")
m("ren-spec-slices", "FwResultOf.rename", SRN, "slices of the parts are dropped", "C81", "r.slicesList.map (Finset.image f), r.slices.image f⟩", "r.slicesList.map (fun _ => ∅), r.slices.image f⟩")
m("ren-names-sorted", "toBits", "Model/Pickle.lean", "bits counted from the end of the order", "C81", "some (s.image fun x => order.idxOf x)", "some (s.image fun x => order.reverse.idxOf x)")

CLM = "Model/Calls.lean"
SEF = "Spec/Effort.lean"
m("eff-choices-order", "choices", CLM, "seeds in reverse order of their draws", "C82", "  | k + 1, s => (((random s).1 * size).floor.toNat :: (choices random size k (random s).2).1, (choices random size k (random s).2).2)", "  | k + 1, s => ((choices random size k (random s).2).1 ++ [((random s).1 * size).floor.toNat], (choices random size k (random s).2).2)")
m("eff-choices-reset", "choices", CLM, "the generator is left where it was", "C82", "(choices random size k (random s).2).2)", "s)")
m("eff-choices-ceil", "choices", CLM, "seeds are rounded up", "C82", "((random s).1 * size).floor.toNat ::", "((random s).1 * size).ceil.toNat ::")
m("eff-call-seed", "callInf", CLM, "each call starts the generator again", "C82", "        ⟨(choices random (2 ^ 32) nRuns.toNat s).2,\n          (optimizeInfWith", "        ⟨s,\n          (optimizeInfWith")
m("eff-call-more", "callInf", CLM, "one run more than asked for", "C82", "(choices random (2 ^ 32) nRuns.toNat s).1 sched sys).2⟩\n\n/-- finite", "(choices random (2 ^ 32) (nRuns.toNat + 1) s).1 sched sys).2⟩\n\n/-- finite")
m("eff-callfw-state", "callFw", CLM, "the generator moves on twice", "C82", "          ⟨(choices random (2 ^ 32) nRuns.toNat s).2,\n            (optimizeFwWith", "          ⟨(random (choices random (2 ^ 32) nRuns.toNat s).2).2,\n            (optimizeFwWith")
m("eff-min-last", "InfOpt.updateMin", "Model/InfMem.lean", "the last tree is kept instead of the best", "C82", "  if o.totalCost < o.minTotal then { o with minTotal := o.totalCost, minCtree := o.ctree } else o", "  { o with minTotal := o.totalCost, minCtree := o.ctree }")
m("eff-fw-min-last", "FwOpt.updateMin", "Model/FiniteWidth.lean", "the last tree is kept instead of the best", "C82", "  if o.inf.totalCost < o.inf.minTotal then\n    { o with inf := { o.inf with minTotal := o.inf.totalCost, minCtree := o.inf.ctree }\n             minSlices := o.slices }\n  else o", "  { o with inf := { o.inf with minTotal := o.inf.totalCost, minCtree := o.inf.ctree }\n           minSlices := o.slices }")
m("eff-slice-better", "FwOpt.updateSlices", "Model/FiniteWidth.lean", "new slices lower the recorded minimum by mistake", "C82", "          .ok { o with slices := newSlices, inf := { o.inf with prng := s, cost := k } }", "          .ok { o with slices := newSlices, inf := { o.inf with prng := s, cost := k, minTotal := o.inf.totalCost + 1 } }")
m("eff-sort-desc", "sortResults", "Model/Anneal.lean", "results sorted the other way round", "C82", "l.insertionSort fun a b => cost a ≤ cost b", "l.insertionSort fun a b => cost b ≤ cost a")
m("eff-sum-max", "costPrinter", "Model/Report.lean", "the total is the difference of the costs", "C82", "roundSig 28 (a + x)) 0", "roundSig 28 (x - a)) 0")
m("eff-beta-all", "annealStep", "Model/Anneal.lean", "the first temperature is skipped if there are more than two", "C82", "    | some (.ok o) => .next (.loop seed todo done 0 betas o) m", "    | some (.ok o) => .next (.loop seed todo done 0 (if 2 < betas.length then betas.tail else betas) o) m")
m("eff-make-seed", "infAnnealWith", "Model/Anneal.lean", "the optimizer is made with another seed", "C82", "match PyInf.make (fun _ _ => m) t (E.prngSeed seed) false none with", "match PyInf.make (fun _ _ => m) t (E.prngSeed (seed + 1)) false none with")
m("eff-spec-prefix", "C82_steps_partial", "Props/Effort.lean", "any further temperatures, in any order", "C82", "    (hpre : usedBetas betas nSteps <+: usedBetas betas' nSteps') (hq : Event.tick ∉ sched') :\n    List.Forall₂ (fun r r' => r'.cost ≤ r.cost) rs rs' := by\n  obtain ⟨bs, L, rs0, h1, rfl, h2⟩ := inf_runs h", "    (hpre : (usedBetas betas nSteps).Subperm (usedBetas betas' nSteps')) (hq : Event.tick ∉ sched') :\n    List.Forall₂ (fun r r' => r'.cost ≤ r.cost) rs rs' := by\n  obtain ⟨bs, L, rs0, h1, rfl, h2⟩ := inf_runs h")
m("eff-spec-used", "usedBetas", SEF, "the second temperature is reached", "C82", "b0 + j * ((b1 - b0) / n)", "b0 + (j + 1) * ((b1 - b0) / n)")

DSM = "Model/Display.lean"
m("dsp-status-first", "showStep", DSM, "whether the run is completed is read after its status, too late", "C83", "  | .row last k =>\n    if k < p.compSlots then { d with st := .stat last k ((w.completed[k]?).getD false) }", "  | .row last k =>\n    if k < p.compSlots then { d with st := .stat last k true }")
m("dsp-no-last", "showStep", DSM, "no last update after the loop", "C83", "    else { d with st := .row true 0 }\n  | .row last k =>", "    else { d with st := .over }\n  | .row last k =>")
m("dsp-any-all", "showStep", DSM, "the loop ends with the first completed run", "C83", "if (w.completed[k]?).getD false then { d with st := .check (k + 1) } else { d with st := .row false 0 }", "if (w.completed[k]?).getD false then { d with st := .row true 0 } else { d with st := .check (k + 1) }")
m("dsp-forget", "removeTask", DSM, "a removed task is forgotten, so that it is added again", "C83", "tasks := dset (dpop d.tasks idx) idx none,", "tasks := dpop d.tasks idx,")
m("dsp-keep-line", "removeTask", DSM, "the line of a removed task stays", "C83", "lines := dpop d.lines t, gone", "lines := d.lines, gone")
m("dsp-leave-removes", "removeTask", DSM, "lines are removed with leave", "C83", "  if p.leave then .ok d\n  else\n    match dget d.tasks idx with", "  if p.leave && d.tasks.length < 2 then .ok d\n  else\n    match dget d.tasks idx with")
m("dsp-remove-running", "endRow", DSM, "lines of running tasks are removed", "C83", "  if c then\n    match removeTask p d k with", "  if true then\n    match removeTask p d k with")
m("dsp-remove-wrong", "endRow", DSM, "the line of the next run is removed", "C83", "match removeTask p d k with", "match removeTask p d (k + 1) with")
m("dsp-row-skip", "endRow", DSM, "every other run is skipped", "C83", "    | .ok d' => { d' with st := .row last (k + 1) }", "    | .ok d' => { d' with st := .row last (k + 2) }")
m("dsp-label", "updateLine", DSM, "labels from zero after an update", "C83", "dset d.lines t ⟨idx + 1, v, got⟩", "dset d.lines t ⟨idx, v, got⟩")
m("dsp-old-value", "updateLine", DSM, "the first value is kept", "C83", "    | some _ => .ok { d with lines := dset d.lines t ⟨idx + 1, v, got⟩ }", "    | some l => .ok { d with lines := dset d.lines t ⟨idx + 1, l.done.or v, got⟩ }")
m("dsp-no-update", "showStep", DSM, "completed runs are not updated", "C83", "    if k < p.statSlots then\n      if (w.mem.status[k]?).any p.pos then { d with st := .value last k c } else endRow p d last k c", "    if k < p.statSlots then\n      if (w.mem.status[k]?).any p.pos && !c then { d with st := .value last k c } else endRow p d last k c")
m("dsp-wrong-slot", "showStep", DSM, "the values of the buffers are those of the first run", "C83", "(dget w.mem.bufs b).bind fun xs => xs[k]?)]) }", "(dget w.mem.bufs b).bind fun xs => xs[0]?)]) }")
m("dsp-one-buffer", "showStep", DSM, "only the first buffer is read", "C83", "w.mem.status[k]? t p.names [] }", "w.mem.status[k]? t (p.names.take 1) [] }")
m("dsp-same-id", "getTask", DSM, "all lines have the same number", "C83", "      fresh := d.fresh + 1 }, some d.fresh)", "      fresh := d.fresh }, some d.fresh)")
m("dsp-add-again", "getTask", DSM, "a line is added at each update", "C83", "  | some t => .ok (d, t)\n  | none =>", "  | some none => .ok (d, none)\n  | _ =>")
m("dsp-clash-off", "updateLine", DSM, "other names are refused", "C83", "[\"self\", \"task_id\", \"completed\", \"idx\"].contains b then .error .typeError", "[\"self\", \"task_id\", \"completed\", \"idx\", \"log2_total_cost\"].contains b then .error .typeError")
m("dsp-check-len", "lastChecks", DSM, "the check asks for one task more", "C83", "(d.tasks.length == p.runs &&", "(d.tasks.length == p.runs + 1 &&")
m("dsp-check-dead", "lastChecks", DSM, "the check looks at the timer the other way round", "C83", "  (!alive || d.tasks.isEmpty ||", "  (alive || d.tasks.isEmpty ||")
m("dsp-check-lines", "lastChecks", DSM, "no lines may be left even with leave", "C83", "  (p.leave || d.tasks.all fun e => e.2.isNone)", "  (d.tasks.all fun e => e.2.isNone)")
m("dsp-sleep-for-ever", "endUpdate", DSM, "the update starts again without a test", "C83", "  else { d with st := .check 0 }", "  else { d with st := .row false 0 }")
m("dsp-join-off", "parallelShown", DSM, "the thread is not joined", "C83", "          if shown && !s.2.st.ended then (sys, none, thread)", "          if shown && !s.2.st.ended && false then (sys, none, thread)")
m("dsp-join-result", "parallelShown", DSM, "results only without a display", "C83", "some (.ok rs), thread)\n\nend TNCO", "(if shown then some (.ok []) else some (.ok rs)), thread)\n\nend TNCO")
m("dsp-always", "parallelShown", DSM, "a display for verbose = 1", "C83", "let shown := decide (2 ≤ verbose)", "let shown := decide (1 ≤ verbose)")
m("dsp-slots-exact", "slotsFor", DSM, "the number of slots is that asked for", "C83", "alloc (n * size) / size", "n")
m("dsp-status-slots", "parallelShown", DSM, "the status has fewer slots", "C83", "slotsFor alloc rows.length 4, pos⟩", "slotsFor alloc rows.length 4 / 2, pos⟩")
m("dsp-app-status", "annealStep", "Model/Anneal.lean", "the status counts the steps made", "C83", "(writeStatus i (ratio n betas.length) (A.log2 o') m)", "(writeStatus i (ratio (n + 1) betas.length) (A.log2 o') m)")
m("dsp-app-slot", "writeStatus", "Model/Anneal.lean", "the status is only written if it is not zero already", "C83", "    status := m.status.set i status", "    status := m.status.set (i + 1) status")
m("dsp-spec-line", "lineOf", "Spec/Display.lean", "the line of the next run", "C83", "⟨i + 1, m.status[i]?,", "⟨i + 2, m.status[i]?,")
m("dsp-spec-pos", "Positive", "Spec/Display.lean", "any status counts", "C83", "m.status[i]? = some v ∧ pos v = true", "m.status[i]? = some v")
ANM = "Model/Anneal.lean"
PRM = "Model/Parallel.lean"
STL = "Spec/TimeLimit.lean"
m("tl-once", "annealStep", ANM, "the flag is only read before the first update of a path", "C84", "if nSteps = some n ∨ m.stop.getD i false = true then annealFinish", "if nSteps = some n ∨ (n = 0 ∧ m.stop.getD i false = true) then annealFinish")
m("tl-late", "annealStep", ANM, "the flag is not read before the first update of a path", "C84", "if nSteps = some n ∨ m.stop.getD i false = true then annealFinish", "if nSteps = some n ∨ (n ≠ 0 ∧ m.stop.getD i false = true) then annealFinish")
m("tl-other", "annealStep", ANM, "the flag of the first run is read", "C84", "if nSteps = some n ∨ m.stop.getD i false = true then annealFinish", "if nSteps = some n ∨ m.stop.getD 0 false = true then annealFinish")
m("tl-drop", "annealFinish", ANM, "a stopped path has the trivial result", "C84", "  | some (.ok k) => .next (.comps seed todo (done ++ [k])) m", "  | some (.ok k) => .next (.comps seed todo (done ++ [if m.stop.any id then A.trivial else k])) m")
m("tl-skip-rest", "annealFinish", ANM, "the paths left are dropped when the time is up", "C84", "  | some (.ok k) => .next (.comps seed todo (done ++ [k])) m", "  | some (.ok k) => .next (.comps seed (if m.stop.any id then [] else todo) (done ++ [k])) m")
m("tl-raise", "annealFinish", ANM, "a stopped run raises an exception", "C84", "  | some (.ok k) => .next (.comps seed todo (done ++ [k])) m", "  | some (.ok k) => if m.stop.any id then .raise .valueError m else .next (.comps seed todo (done ++ [k])) m")
m("tl-timer-reverse", "tickStep", PRM, "the last flag is set first", "C84", "w.mem.stop.set k true", "w.mem.stop.set (w.mem.stop.length - 1 - k) true", tightened=["C84_order"])
m("tl-timer-at-once", "tickStep", PRM, "all flags are set at once", "C84", "stop := w.mem.stop.set k true", "stop := w.mem.stop.map fun _ => true", tightened=["C84_order"])
m("tl-timer-arm", "tickStep", PRM, "the first flag is forgotten", "C84", "| .armed => { w with timer := .firing 0 }", "| .armed => { w with timer := .firing 1 }")
m("tl-timer-skip", "tickStep", PRM, "the timer sets every other flag", "C84", "        timer := .firing (k + 1)", "        timer := .firing (k + 2)")
m("tl-timer-last", "tickStep", PRM, "the last flag is not set", "C84", "    if k < w.mem.stop.length then\n      { w with\n        timer := .firing", "    if k + 1 < w.mem.stop.length then\n      { w with\n        timer := .firing")
m("tl-timer-reset", "tickStep", PRM, "the timer begins again", "C84", "    else { w with timer := .over }\n  | .over => w", "    else { w with timer := .over }\n  | .over => { w with timer := .armed }")
m("tl-timer-clear", "tickStep", PRM, "flags are cleared when all are set", "C84", "    else { w with timer := .over }\n  | .over => w", "    else { w with timer := .over, mem := { w.mem with stop := w.mem.stop.map fun _ => false } }\n  | .over => w")
m("tl-seq-skip", "workStep", PRM, "runs do not begin after the time limit", "C84", "  | some .pending, some (xs, d) =>\n    { w.put", "  | some .pending, some (xs, d) =>\n    if w.timer = .over then w else { w.put")
m("tl-spec-now", "Anneal.wrapUp", STL, "the paths left are dropped", "C84", "    | some (.ok k) => A.wrapPaths seed todo (done ++ [k])\n\n/-- The same", "    | some (.ok k) => some (A.total (done ++ [k]))\n\n/-- The same")
m("tl-spec-start", "Anneal.lateResult", STL, "runs that have not begun return nothing", "C84", "  | .pending => A.wrapUp (.start seed)", "  | .pending => none")
m("tl-spec-order", "Anneal.wrapPaths", STL, "results in reverse order", "C84", "    | some (.ok k) => A.wrapPaths seed todo (done ++ [k])\n\n/-- What", "    | some (.ok k) => A.wrapPaths seed todo (k :: done)\n\n/-- What")
m("tl-bound", "C84_infinite", "Props/TimeLimit.lean", "one turn less for each path", "C84", "    (hlen : seeds.length * (2 * N.tensors.length + 4) ≤ rounds.length) :\n    ∃ sys' rs, optimizeInf", "    (hlen : seeds.length * (N.tensors.length + 4) ≤ rounds.length) :\n    ∃ sys' rs, optimizeInf")
m("tl-ticks", "C84_flags", "Props/TimeLimit.lean", "one step of the timer for each run", "C84", "theorem C84_flags {es : List Event} (ht : seeds.length + 2 ≤", "theorem C84_flags {es : List Event} (ht : seeds.length ≤")
WTM = "Model/TraverseTree.lean"
m("wt-catch", "walkLoop", WTM, "an exception is swallowed and the walk goes on", "C85", "      | (s', some e) => some (s', k + 1, some e)", "      | (s', some _) => walkLoop tree cb fuel stack visited s' (k + 1)")
m("wt-end-quiet", "walkLoop", WTM, "an exception ends the walk quietly", "C85", "      | (s', some e) => some (s', k + 1, some e)", "      | (s', some _) => some (s', k + 1, none)")
m("wt-roll-back", "walkLoop", WTM, "the state of the call that raises is dropped", "C85", "      | (s', some e) => some (s', k + 1, some e)", "      | (_, some e) => some (s, k + 1, some e)")
m("wt-count-after", "walkLoop", WTM, "calls are counted after they end", "C85", "      | (s', some e) => some (s', k + 1, some e)", "      | (s', some e) => some (s', k, some e)")
m("wt-count-leaves", "walkLoop", WTM, "only leaves are counted", "C85", "      | (s', none) => walkLoop tree cb fuel stack visited s' (k + 1)", "      | (s', none) => walkLoop tree cb fuel stack visited s' (if visited pos then k else k + 1)")
m("wt-right-first", "walkLoop", WTM, "the second child comes first", "C85", "walkLoop tree cb fuel (a :: b :: pos :: stack)", "walkLoop tree cb fuel (b :: a :: pos :: stack)")
m("wt-preorder", "walkLoop", WTM, "the node comes before its children", "C85", "walkLoop tree cb fuel (a :: b :: pos :: stack)", "walkLoop tree cb fuel (pos :: a :: b :: stack)")
m("wt-total", "traverseTree", WTM, "the total is the number of inner nodes", "C85", "(tree s).size, decide", "(tree s).size / 2, decide")
m("wt-shown", "traverseTree", WTM, "the bar is shown with verbose = 0", "C85", "decide (0 < verbose)", "decide (0 ≤ verbose)")
m("wt-root", "traverseTree", WTM, "the walk starts one position too early", "C85", "fuel [(tree s).size - 1]", "fuel [(tree s).size - 2]")
m("wt-spec-reads", "KeepsTree", "Spec/TraverseTree.lean", "callbacks may change the tree", "C85", "∀ p s, tree (cb p s).1 = tree s", "∀ p s, (tree (cb p s).1).size = (tree s).size")
m("wt-spec-under", "Under", "Spec/TraverseTree.lean", "only direct children count", "C85", "Relation.ReflTransGen (fun a b => (T.nodes a).parent = some b) p x", "p = x ∨ (T.nodes p).parent = some x")

PIM = "Model/PathInts.lean"
SPI = "Spec/PathInts.lean"
m("pi-order", "popStep", PIM, "the smaller position is popped first", "C86", "    match pyPop pos (max a b) with\n    | none => .error .indexError\n    | some (py, rest) =>\n      match pyPop rest (min a b) with", "    match pyPop pos (min a b) with\n    | none => .error .indexError\n    | some (py, rest) =>\n      match pyPop rest (max a b) with")
m("pi-unsorted", "popStep", PIM, "the positions are not sorted", "C86", "    match pyPop pos (max a b) with\n    | none => .error .indexError\n    | some (py, rest) =>\n      match pyPop rest (min a b) with", "    match pyPop pos b with\n    | none => .error .indexError\n    | some (py, rest) =>\n      match pyPop rest a with")
m("pi-normal", "popStep", PIM, "negative positions are resolved before both pops", "C86", "      match pyPop rest (min a b) with", "      match pyPop rest (if min a b < 0 then min a b + rest.length else min a b) with")
m("pi-one-off", "pyPlace", PIM, "-1 is the last but one entry", "C86", "  else if (-i).toNat ≤ k then some (k - (-i).toNat)", "  else if (-i).toNat < k then some (k - (-i).toNat - 1)")
m("pi-wrap", "pyPlace", PIM, "positions out of range wrap around", "C86", "  else if (-i).toNat ≤ k then some (k - (-i).toNat)\n  else none", "  else some (k - (-i).toNat)")
m("pi-clamp", "pyPlace", PIM, "a position at the end of the list means the last entry", "C86", "(if i.toNat < k then some i.toNat else none)", "(if i.toNat < k then some i.toNat else if i.toNat = k then some (k - 1) else none)")
m("pi-no-negative", "pyPlace", PIM, "negative positions are rejected", "C86", "  else if (-i).toNat ≤ k then some (k - (-i).toNat)\n  else none", "  else none")
m("pi-step-three", "popStep", PIM, "further entries of a step are ignored", "C86", "  | [a, b] =>\n    match pyPop pos", "  | a :: b :: _ =>\n    match pyPop pos")
m("pi-step-err", "popStep", PIM, "a step that does not have two positions raises IndexError", "C86", "      | some (px, rest') => .ok (px, py, rest')\n  | _ => .error .valueError", "      | some (px, rest') => .ok (px, py, rest')\n  | _ => .error .indexError")
m("pi-swap", "popStep", PIM, "the two entries are swapped", "C86", "      | some (px, rest') => .ok (px, py, rest')", "      | some (px, rest') => .ok (py, px, rest')")
m("pi-label", "contractionLoopZ", PIM, "new tensors are numbered from n + 1 on", "C86", "      | .ok c => .ok ((px, py, i + n) :: c)", "      | .ok c => .ok ((px, py, i + n + 1) :: c)")
m("pi-front", "contractionLoopZ", PIM, "the new tensor comes first", "C86", "contractionLoopZ n (i + 1) (rest ++ [i + n]) path", "contractionLoopZ n (i + 1) (i + n :: rest) path")
m("pi-skip-error", "contractionLoopZ", PIM, "the path ends at the first bad step", "C86", "  | i, pos, s :: path =>\n    match popStep pos s with\n    | .error e => .error e", "  | i, pos, s :: path =>\n    match popStep pos s with\n    | .error _ => .ok []")
m("pi-tree-equal", "PyTree.ofPathZ", PIM, "equal positions are rejected", "C86", "  | _ :: _ =>\n    match contractionLoopZ", "  | _ :: _ =>\n    if path.any (fun s => s.length == 2 && s.head? == s.getLast?) then .error .valueError else match contractionLoopZ")
m("pi-contract-equal", "contractLoopZ", PIM, "equal positions are not rejected", "C86", "    if sameEntries s then .error .valueError                                           -- 975-976\n    else match popStep ts s with", "    match popStep ts s with")
m("pi-contract-rest", "contractLoopZ", PIM, "the new tensor comes first", "C86", "(lowerCount hc xs ys) (rest ++ [z]) path", "(lowerCount hc xs ys) (z :: rest) path")
m("pi-contract-count", "contractLoopZ", PIM, "hyper-counts are not lowered", "C86", "contractLoopZ enum out (lowerCount hc xs ys)", "contractLoopZ enum out hc")
m("pi-contract-ops", "contractLoopZ", PIM, "the first tensor is contracted with itself", "C86", "match tensordot ax xs ay ys (enum (keptInds hc out xs ys)) with", "match tensordot ax xs ax xs (enum (keptInds hc out xs ys)) with")
m("pi-merge-label", "mergeLoopZ", PIM, "labels do not contain the number of the path", "C86", "        match mergeLoopZ i (rest ++ [.made i rest.length])", "        match mergeLoopZ i (rest ++ [.made 0 rest.length])")
m("pi-merge-order", "mergeLoopZ", PIM, "the larger position comes first", "C86", "(min (mpos.idxOf px) (mpos.idxOf py), max (mpos.idxOf px) (mpos.idxOf py)) :: p)", "(max (mpos.idxOf px) (mpos.idxOf py), min (mpos.idxOf px) (mpos.idxOf py)) :: p)")
m("pi-merge-auto", "mergePathsZ", PIM, "the last contraction is missing", "C86", "List.replicate (m.length - 1) (0, 1) else p)", "List.replicate (m.length - 2) (0, 1) else p)")
m("pi-color-min", "colorLoopZ", PIM, "the larger colour is kept", "C86", "              dictSet d2 (min cx cy)", "              dictSet d2 (max cx cy)")
m("pi-split-read", "readStep", PIM, "the tensors are read unsorted", "C86", "    match pyAt tensors (min a b), pyAt tensors (max a b) with", "    match pyAt tensors b, pyAt tensors a with")
m("pi-split-after", "splitLoopZ", PIM, "the assertion is dropped", "C86", "        if ¬ ty ∈ cc.getD k ∅ then .error .assertionError\n        else\n          match popStep tensors s with", "          match popStep tensors s with")
m("pi-spec-names", "Names", SPI, "negative positions name the entry before", "C86", "i = (j : ℤ) - k)", "i = (j : ℤ) - k + 1)")
m("pi-spec-right", "RightPath", SPI, "the negative position may name the earlier entry", "C86", "0 ≤ max x y ∧ max x y < k + min x y", "0 ≤ max x y")
m("pi-spec-popped", "Popped", SPI, "both positions are read in the list before the step", "C86", "Names (F.length - 1) (min x y) i →\n      (F.eraseIdx j)[i]?", "Names F.length (min x y) i →\n      (F.eraseIdx j)[i]?")
m("pi-spec-places", "Places", SPI, "the place is not shifted", "C86", "((if i < j then i else i + 1, j) :: q)", "((i, j) :: q)")

m("core-node-twins", "Node.isValid", "Model/Tree.lean", "a node may have one child twice", "C05", "  else if !n.isLeaf && n.c0 == n.c1 then false\n", "")
m("core-node-parent-child", "Node.isValid", "Model/Tree.lean", "the parent may be a child", "C05", "  else if !n.isLeaf && !n.isRoot && (n.parent == n.c0 || n.parent == n.c1) then false\n", "")
m("core-node-half", "Node.isValid", "Model/Tree.lean", "a node may have one child only", "C05", "  if n.c0.isNone != n.c1.isNone then false\n  -- 93: children must be different\n  else if", "  if")
m("core-node-zero", "Node.ofInt", "Model/Tree.lean", "position 0 is null", "C05", "if x < 0 then none", "if x ≤ 0 then none")
m("core-tree-empty", "Tree.make", "Model/Tree.lean", "an empty vector is accepted", "C05", "  if l.length = 0 then none\n  else if", "  if")
m("core-tree-two-roots", "Tree.isValid", "Model/Tree.lean", "several roots are accepted", "C05", "!= 1 then false\n  -- 88-90", "== 0 then false\n  -- 88-90")
m("core-tree-refs", "Tree.isValid", "Model/Tree.lean", "parents outside the vector are accepted", "C05", "      refOk T.size n.parent && refOk T.size n.c0", "      refOk T.size n.c0")
m("core-tree-ref-le", "Tree.refOk", "Model/Tree.lean", "a reference may be the size", "C05", "  | some x => decide (x < n)", "  | some x => decide (x ≤ n)")
m("core-tree-size", "Tree.isValid", "Model/Tree.lean", "the number of nodes is not checked", "C05", "  else if T.size != 2 * T.nLeaves - 1 then false\n", "")
m("core-tree-children-count", "Tree.countChildren", "Model/Tree.lean", "only first children are counted", "C05", " +\n  ((List.range T.size).countP fun j => (T.nodes j).c0 != none && (T.nodes j).c1 == some i)", "")
m("core-tree-right-ternary", "Tree.isValid", "Model/Tree.lean", "the counts of children are compared as was meant", "C05", "      !(T.countChildren i == (if (T.nodes i).isRoot then 1 else 0))) then false", "      T.countChildren i == (if (T.nodes i).isRoot then 0 else 1)) then false")
m("core-leaves", "Tree.nLeaves", "Model/Tree.lean", "half of the size", "C05", "(T.size + 1) / 2", "T.size / 2")
m("core-swap-range", "Tree.swapWithNN", "Model/Tree.lean", "the last position is left alone", "C06", "  if T.size ≤ posD then T ", "  if T.size ≤ posD + 1 then T ")
m("core-swap-order", "Tree.swapWithNN", "Model/Tree.lean", "the parents are exchanged", "C06", "{ n2 posC with parent := some posB }", "{ n2 posC with parent := some posA }")
m("core-swap-stale", "Tree.swapWithNN", "Model/Tree.lean", "the second assignment reads the old vector", "C06", "Function.update n1 posB (replaceChild (n1 posB) posD posC)   -- 181", "Function.update n0 posB (replaceChild (n0 posB) posD posC)   -- 181")
m("core-swap-uncle", "Tree.swapWithNN", "Model/Tree.lean", "the sibling is exchanged with itself", "C06", "replaceChild (n1 posB) posD posC", "replaceChild (n1 posB) posC posD")
m("core-trav-start", "traverse", "Model/Traverse.lean", "the walk starts at position 0", "C07", "[T.size - 1]", "[0]")
m("core-trav-front", "traverseLoop", "Model/Traverse.lean", "the order of the callbacks is reversed", "C07", "(out ++ [pos])", "(pos :: out)")
m("core-trav-one", "traverseLoop", "Model/Traverse.lean", "the second child is not visited", "C07", "(a :: b :: pos :: stack)", "(a :: pos :: stack)")
m("core-contr-leaf", "getContraction", "Model/Traverse.lean", "the result comes first", "C08", "some (a, b, pos)", "some (pos, a, b)")
m("core-contr-rev", "getContraction", "Model/Traverse.lean", "the last contraction comes first", "C08", "(traverse fuel T).map fun l => l.filterMap", "(traverse fuel T).map fun l => l.reverse.filterMap")
m("core-dims-zero", "Dims.ok", "Model/CTree.lean", "dimensions may be zero", "C10", "l.length == n && l.all (· != 0)", "l.length == n")
m("core-dims-len", "Dims.ok", "Model/CTree.lean", "the number of dimensions is not checked", "C10", "l.length == n && l.all (· != 0)", "l.all (· != 0)")
m("core-dims-collapse", "Dims.collapse", "Model/CTree.lean", "one number if the first two agree", "C10", "if l.all (· == d) then int d", "if l.head? == some d then int d")
m("core-shared-always", "CTree.nodeOk", "Model/CTree.lean", "shared indices are always demanded", "C16", "(checkShared && !(c.inds a)", "(!(c.inds a)")
m("core-shared-never", "CTree.nodeOk", "Model/CTree.lean", "shared indices are never demanded", "C16", "    !((checkShared && !(c.inds a).intersects (c.inds b)) ||\n      !decide", "    !(!decide")
m("core-xor-union", "ISet.xor", "Model/CTree.lean", "all indices of both", "C10", "(a \\ b) ∪ (b \\ a)", "a ∪ b")
m("core-intersects", "ISet.intersects", "Model/CTree.lean", "sets that differ intersect", "C16", "decide (a ∩ b ≠ ∅)", "decide (a ≠ ∅)")
m("core-cost-vec-sum", "simpleGet", "Model/Cost.lean", "a sum instead of a product", "C19", "∏ i ∈ inds, l.getD i 0", "∑ i ∈ inds, l.getD i 0")
m("core-cost-vec-one", "simpleGet", "Model/Cost.lean", "missing dimensions are 2", "C19", "∏ i ∈ inds, l.getD i 0", "∏ i ∈ inds, l.getD i 2")
m("core-cost-int-exp", "simpleGet", "Model/Cost.lean", "exponent and base exchanged", "C19", "d ^ inds.card", "inds.card ^ d")
m("core-sparse-projs", "sparseModel", "Model/Cost.lean", "no projections are accepted", "C20", "if nProjs = 0 then none", "if nProjs = 1 then none")
m("core-sparse-dense", "sparseGet", "Model/Cost.lean", "sparse indices are also counted as dense", "C20", "simpleGet dims (inds \\ sparse) *", "simpleGet dims inds *")
m("core-sparse-add", "sparseGet", "Model/Cost.lean", "a sum of the two factors", "C20", "simpleGet dims (inds \\ sparse) *\n", "simpleGet dims (inds \\ sparse) +\n")
m("core-greedy-strict", "probGreedy", "Model/Prob.lean", "equal costs are rejected", "C17", "if delta ≤ 0 then 1 else 0", "if delta < 0 then 1 else 0")
m("core-mh-strict", "probMH", "Model/Prob.lean", "better moves may be rejected", "C18", "  if delta ≤ 0 then 1 else (1 + delta / old) ^ (-beta)", "  (1 + delta / old) ^ (-beta)")
m("core-mh-beta", "probMH", "Model/Prob.lean", "the temperature is not used", "C18", "^ (-beta)", "^ (-1 : ℝ)")
m("core-cache-leaf", "CostCache.visit", "Model/InfMem.lean", "leaves keep what was there", "C14", "      partialCost := Function.update k.partialCost pos 0 }", "      partialCost := k.partialCost }")
m("core-cache-left", "CostCache.visit", "Model/InfMem.lean", "the second child is not counted", "C14", "(cost + k.partialCost b + k.partialCost d)", "(cost + k.partialCost b)")
m("core-hyper-two", "hyperCache", "Model/InfMem.lean", "hyper-indices need not be in the result", "C13", "c.inds pos ∩ c.inds b ∩ c.inds d", "c.inds b ∩ c.inds d")
m("core-getcost-first", "getCost", "Model/InfMem.lean", "the cost starts with the first contraction", "C14", "    | _, _ => t) 0", "    | _, _ => 0) 0")
m("core-total-pos", "InfOpt.totalCost", "Model/InfMem.lean", "the total is read one position before", "C14", "o.cost.partialCost (o.ctree.tree.size - 1)", "o.cost.partialCost (o.ctree.tree.size - 2)")
m("core-nn-sibling", "getCtreeNN", "Model/InfMem.lean", "the sibling of B is B", "C13", "    match (if (c.tree.nodes posA).c0 = some posB then (c.tree.nodes posA).c1\n           else (c.tree.nodes posA).c0) with", "    match (if (c.tree.nodes posA).c0 = some posB then (c.tree.nodes posA).c0\n           else (c.tree.nodes posA).c1) with")
m("core-nn-shared", "getCtreeNN", "Model/InfMem.lean", "shared indices are disregarded", "C16", "if disableShared || (inter0 && inter1) then", "if true then")
m("core-body-hyper-a", "Walk.body", "Model/InfMem.lean", "the hyper-indices of A are not updated", "C13", "        hyper := Function.update (Function.update o.hyper posA (indsA ∩ newB ∩ indsE))\n          w.posB", "        hyper := Function.update o.hyper\n          w.posB")
m("core-body-prng", "Walk.body", "Model/InfMem.lean", "the generator is not advanced by a rejected move", "C13", "    { o := { o with prng := s, cost := ⟨pc2, cc⟩ }, posB := posA, total := w.total }", "    { o := { o with cost := ⟨pc2, cc⟩ }, posB := posA, total := w.total }")
m("core-run-stop", "Walk.run", "Model/InfMem.lean", "the walk stops after one step", "C13", "      Walk.run g m prob fuel (Walk.body g m prob { w with o := { w.o with prng := s } } a c d e)", "      some (Walk.body g m prob { w with o := { w.o with prng := s } } a c d e)")
m("core-update-leaf", "InfOpt.update", "Model/InfMem.lean", "the walk starts at any node", "C13", "(n % o.ctree.tree.nLeaves)).parent with     -- 103-109", "(n % o.ctree.tree.size)).parent with     -- 103-109")
m("core-update-nomin", "InfOpt.update", "Model/InfMem.lean", "the minimum is not updated", "C15", "fun w => w.o.updateMin", "fun w => w.o")
m("core-min-le", "InfOpt.updateMin", "Model/InfMem.lean", "the minimum is replaced by equal costs", "C15", "if o.totalCost < o.minTotal then", "if ¬ o.minTotal < o.totalCost then")
m("core-make-min", "InfOpt.makeWith", "Model/InfMem.lean", "the given best tree is dropped", "C15", "  let minC := minCtree.getD ctree\n  if !(ctree", "  let minC := ctree\n  if !(ctree")
m("core-big-all", "nBig", "Model/FiniteWidth.lean", "small tensors are counted", "C23", "wm.maxWidth < width t ∧ x ∈ c.inds t", "x ∈ c.inds t")
m("core-sort-less", "sliceGreater", "Model/FiniteWidth.lean", "indices of few big tensors first", "C23", "  if wm.scalar then decide (big y < big x)", "  if wm.scalar then decide (big x < big y)")
m("core-loop-erase", "sliceLoop", "Model/FiniteWidth.lean", "the width is always computed from the whole tensor", "C23", "(insert x slices) (xs.erase x) w'", "(insert x slices) xs w'")
m("core-loop-width", "sliceLoop", "Model/FiniteWidth.lean", "the width is not lowered", "C23", "(insert x slices) (xs.erase x) w'", "(insert x slices) (xs.erase x) w")
m("core-fit-slices", "allFit", "Model/FiniteWidth.lean", "the width before slicing counts", "C21", "(c.inds p \\ slices) ≤ wm.maxWidth", "(c.inds p) ≤ wm.maxWidth")
m("core-fit-strict", "allFit", "Model/FiniteWidth.lean", "the limit itself is too wide", "C21", "(c.inds p \\ slices) ≤ wm.maxWidth", "(c.inds p \\ slices) < wm.maxWidth")
m("core-init-given", "initSlices", "Model/FiniteWidth.lean", "given slices are dropped", "C21", "  | some sl => some (sl, seed)", "  | some _ => some (∅, seed)")
m("core-fw-min-check", "FwOpt.makeWith", "Model/FiniteWidth.lean", "the best tree need not fit", "C21", " || !(allFit wm minC minSl) then", " then")
m("core-fw-nomin", "FwOpt.update", "Model/FiniteWidth.lean", "the minimum is not updated", "C15", "      | .ok o => .ok o.updateMin", "      | .ok o => .ok o")
m("core-fw-slices-always", "FwOpt.update", "Model/FiniteWidth.lean", "slices are renewed always", "C23", "w.o.updateSlices g m wm updateSlices with", "w.o.updateSlices g m wm true with")
m("core-max-inds", "maxInds", "Model/PathBuild.lean", "one bit too few", "C10", "max (x + 1) m", "max x m")
m("core-make-len", "CTree.make", "Model/PathBuild.lean", "the number of tensors is not checked", "C10", "    if inds.length ≠ T.size then .error .invalidArgument                           -- 109\n    else\n", "")
m("core-make-check", "CTree.make", "Model/PathBuild.lean", "the tree is not checked", "C10", "      if c.isValid check then .ok c else .error .invalidArgument", "      .ok c")
m("core-flatten", "flattenTriples", "Model/PathBuild.lean", "results are not listed", "C09", "[t.1, t.2.1, t.2.2]", "[t.1, t.2.1]")
m("core-size", "buildNodes", "Model/PathBuild.lean", "one node more", "C09", "(flattenTriples tree).foldr max 0 + 1 ", "(flattenTriples tree).foldr max 0 + 2 ")
m("core-dims-key", "PyDims.toList", "Model/PathBuild.lean", "missing dimensions raise ValueError", "C09", "    | none => .error .keyError", "    | none => .error .valueError")
m("core-order-rev", "PyTree.ofTriples", "Model/PathBuild.lean", "the order of the indices is reversed in the dimensions", "C10", "          match dims.toList order with", "          match dims.toList order.reverse with")
m("core-tensors-pos", "PyTree.ofTriples", "Model/PathBuild.lean", "the positions of the tensors are not kept", "C11", "              | .ok core => .ok ⟨core, n, tensorsPos, order⟩", "              | .ok core => .ok ⟨core, n, List.range tensorsPos.length, order⟩")

T = "Model/Twister.lean"
m("mt-seed-mult", "seedWord", T, "the multiplier is 1812433251", "C87", "* 1812433253 + i % 624", "* 1812433251 + i % 624")
m("mt-seed-shift", "seedWord", T, "shift by 29", "C87", "(x ^^^ (x >>> 30))", "(x ^^^ (x >>> 29))")
m("mt-seed-noindex", "seedWord", T, "the index is not added", "C87", "* 1812433253 + i % 624) % 2 ^ 32", "* 1812433253) % 2 ^ 32")
m("mt-seed-64", "seedWord", T, "words are not cut to 32 bits", "C87", "+ i % 624) % 2 ^ 32", "+ i % 624) % 2 ^ 64")
m("mt-seed-same", "seedLoop", T, "the words are made of the seed, not of the one before", "C87", "seedWord x i :: seedLoop n (i + 1) (seedWord x i)", "seedWord x i :: seedLoop n (i + 1) x")
m("mt-seed-start", "Mt.seed", T, "the first index is 0", "C87", "seedLoop 623 1 (sd % 2 ^ 32), 624⟩", "seedLoop 623 0 (sd % 2 ^ 32), 624⟩")
m("mt-seed-pos", "Mt.seed", T, "the seeded words are drawn first", "C87", "(sd % 2 ^ 32), 624⟩", "(sd % 2 ^ 32), 0⟩")
m("mt-seed-nomod", "Mt.seed", T, "the seed is taken modulo 2^31", "C87", "⟨sd % 2 ^ 32 :: seedLoop 623 1 (sd % 2 ^ 32), 624⟩", "⟨sd % 2 ^ 31 :: seedLoop 623 1 (sd % 2 ^ 31), 624⟩")
m("mt-default", "Mt.default", T, "another default seed", "C87", ".seed 5489", ".seed 4357")
m("mt-join-swap", "joinWords", T, "upper and lower bits exchanged", "C87", "(x &&& (2 ^ 64 - 2 ^ 31)) ||| (y &&& (2 ^ 31 - 1))", "(y &&& (2 ^ 64 - 2 ^ 31)) ||| (x &&& (2 ^ 31 - 1))")
m("mt-join-30", "joinWords", T, "30 lower bits", "C87", "(x &&& (2 ^ 64 - 2 ^ 31)) ||| (y &&& (2 ^ 31 - 1))", "(x &&& (2 ^ 64 - 2 ^ 30)) ||| (y &&& (2 ^ 30 - 1))")
m("mt-twist-const", "twistWord", T, "another constant", "C87", "0x9908b0df", "0x9908b0de")
m("mt-twist-even", "twistWord", T, "the constant is added for even words", "C87", "if y &&& 1 ≠ 0 then", "if y &&& 1 = 0 then")
m("mt-twist-old", "twistWord", T, "the bit is tested after the shift", "C87", "if y &&& 1 ≠ 0 then", "if (y >>> 1) &&& 1 ≠ 0 then")
m("mt-renew-far", "renewLow", T, "398 instead of 397", "C87", "(k + 1) (k + 397)) x", "(k + 1) (k + 396)) x")
m("mt-renew-low-short", "renewLow", T, "the first loop ends early", "C87", "(List.range' 0 227).foldl (fun x k => renewWord x k (k + 1) (k + 397)) x\n\n/-- tcc:409", "(List.range' 0 226).foldl (fun x k => renewWord x k (k + 1) (k + 397)) x\n\n/-- tcc:409")
m("mt-renew-mid-far", "renewMid", T, "the second loop reads a wrong word", "C87", "(k + 1) (k - 227)) x", "(k + 1) (k - 226)) x")
m("mt-renew-last", "renewWords", T, "the last word is not renewed", "C87", "renewWord (renewMid (renewLow x)) 623 0 396", "renewMid (renewLow x)")
m("mt-renew-last-old", "renewWords", T, "the last word is joined with the old first one", "C87", "renewWord (renewMid (renewLow x)) 623 0 396", "renewMid (renewWord (renewLow x) 623 0 396)")
m("mt-temper-11", "temper", T, "shift by 12", "C87", "z >>> 11", "z >>> 12")
m("mt-temper-7", "temper", T, "shift by 8", "C87", "z <<< 7", "z <<< 8")
m("mt-temper-mask", "temper", T, "a mask is left out", "C87", "((z <<< 15) &&& 0xefc60000)", "(z <<< 15)")
m("mt-temper-18", "temper", T, "the last step is left out", "C87", "  z ^^^ (z >>> 18)", "  z")
m("mt-fill-lt", "Mt.fill", T, "renewed one word late", "C87", "if 624 ≤ e.pos then", "if 624 < e.pos then")
m("mt-fill-early", "Mt.fill", T, "renewed one word early", "C87", "if 624 ≤ e.pos then", "if 623 ≤ e.pos then")
m("mt-draw-stay", "Mt.draw", T, "the position stays", "C87", "e.fill.pos + 1⟩)", "e.fill.pos⟩)")
m("mt-canon-swap", "Mt.uniform", T, "the first draw is the upper half", "C87", "canonical e.draw.1 e.draw.2.draw.1,", "canonical e.draw.2.draw.1 e.draw.1,")
m("mt-canon-one", "canonical", T, "1 is possible", "C87", "then 1 - 1 / 2 ^ 53", "then 1")
m("mt-canon-63", "canonical", T, "numbers up to 2", "C87", "  else roundTo 53 (roundTo 53 a + roundTo 53 b * 2 ^ 32) / 2 ^ 64", "  else roundTo 53 (roundTo 53 a + roundTo 53 b * 2 ^ 32) / 2 ^ 63")
m("mt-canon-single", "Mt.uniform", T, "one number of 32 bits only", "C87", "(canonical e.draw.1 e.draw.2.draw.1, e.draw.2.draw.2)", "(canonical 0 e.draw.1, e.draw.2)")
m("mt-dump-nospace", "Mt.dump", T, "words are not separated", "C87", "decText w ++ [32]", "decText w ++ []")
m("mt-dump-nopos", "Mt.dump", T, "the position is not written", "C87", " ++ decText e.pos", "")
m("mt-blank-nl", "isBlank", T, "newlines are no spaces", "C87", "c == 32 || (decide (9 ≤ c) && decide (c ≤ 13))", "c == 32")
m("mt-blank-nl-again", "isBlank", T, "newlines are no spaces", "C87", "c == 32 || (decide (9 ≤ c) && decide (c ≤ 13))", "c == 32", tightened=["C87_spaces"])
m("mt-blank-cr", "isBlank", T, "carriage returns are no spaces", "C87", "decide (c ≤ 13))", "decide (c ≤ 12))", tightened=["C87_spaces"])
m("mt-spec-comma", "IsGap", "Spec/Twister.lean", "commas are gaps", "C87", "[32, 9, 10, 11, 12, 13]", "[32, 9, 10, 11, 12, 13, 44]")
m("mt-spec-nogap", "WrittenAs", "Spec/Twister.lean", "numbers need not be separated", "C87", "IsGap g → IsGap [c] → WrittenAs ns", "IsGap g → WrittenAs ns")
m("mt-num-9", "isNum", T, "9 is no digit", "C87", "decide (48 ≤ c) && decide (c ≤ 57)", "decide (48 ≤ c) && decide (c ≤ 56)")
m("mt-finish-empty", "finishNumber", T, "without digits the variable becomes 1", "C87", "if digits = [] then (0, ⟨rest, false⟩)", "if digits = [] then (1, ⟨rest, false⟩)")
m("mt-finish-32", "finishNumber", T, "numbers beyond 32 bits are too large", "C87", "else if 2 ^ 64 ≤ numValue digits", "else if 2 ^ 32 ≤ numValue digits")
m("mt-finish-good", "finishNumber", T, "never at the end of the text", "C87", "⟨rest, rest ≠ []⟩)", "⟨rest, true⟩)")
m("mt-read-pos", "Mt.read", T, "the position is not read", "C87", "(extractNumber (readWords ⟨text, true⟩ e.words).2).1.getD e.pos⟩", "e.pos⟩")
m("mt-seed-neg", "Mt.ofSeed", T, "negative seeds are accepted", "C87", "if 0 ≤ z ∧ z < 2 ^ 64 then", "if z < 2 ^ 64 then")
m("mt-text-seed", "Mt.ofSeed", T, "a text is the seed of its value", "C87", ".ok (Mt.default.read cs)", ".ok (.seed (numValue cs))")
m("mt-text-zero", "Mt.ofSeed", T, "a text is read over a generator of seed 0", "C87", ".ok (Mt.default.read cs)", ".ok ((Mt.seed 0).read cs)")
m("mt-pickle-reseed", "PyInf.unpickleText", T, "the generator is not restored", "C87", "  | some e => PyInf.unpickle enum cm ⟨{ o.core with prng := e }, o.cache⟩", "  | some _ => PyInf.unpickle enum cm ⟨{ o.core with prng := ⟨Mt.default, by decide +kernel⟩ }, o.cache⟩")

SH = "Model/Shuffle.lean"
m("shuf-thr", "scale", SH, "the threshold is the range", "C88", "((2 ^ 32 - range) % 2 ^ 32 % range) fuel", "range fuel")
m("shuf-thr-zero", "scale", SH, "nothing is rejected", "C88", "((2 ^ 32 - range) % 2 ^ 32 % range) fuel", "0 fuel")
m("shuf-loop-same", "scaleLoop", SH, "the generator is not advanced", "C88", "scaleLoop next range threshold fuel ((next s).1 * range % 2 ^ 64) (next s).2", "scaleLoop next range threshold fuel ((next s).1 * range % 2 ^ 64) s")
m("shuf-loop-low", "scaleLoop", SH, "the lower half is returned", "C88", "    else .ok (product / 2 ^ 32, s) ", "    else .ok (product % range, s) ")
m("shuf-scale-mod", "scale", SH, "the remainder is returned", "C88", "  else .ok ((next s).1 * range % 2 ^ 64 / 2 ^ 32, (next s).2)", "  else .ok ((next s).1 % range, (next s).2)")
m("shuf-scale-first", "scale", SH, "the state is not advanced", "C88", "  else .ok ((next s).1 * range % 2 ^ 64 / 2 ^ 32, (next s).2)", "  else .ok ((next s).1 * range % 2 ^ 64 / 2 ^ 32, s)")
m("shuf-swap-copy", "swapPos", SH, "an entry is copied", "C88", "(l.set i (l.getD j 0)).set j (l.getD i 0)", "l.set i (l.getD j 0)")
m("shuf-iter-noswap", "iterSwap", SH, "nothing is exchanged", "C88", "then .ok (swapPos l i j) else", "then .ok l else")
m("shuf-iter-check", "iterSwap", SH, "the position is not checked", "C88", "if i < l.length ∧ j < l.length then", "if i < l.length then")
m("shuf-single-range", "shuffleSingles", SH, "an entry never stays where it is", "C88", "    match scale next fuel (i + 1) s with\n    | .error e => .error e\n    | .ok (x, s) =>\n      match iterSwap l i x with", "    match scale next fuel i s with\n    | .error e => .error e\n    | .ok (x, s) =>\n      match iterSwap l i x with")
m("shuf-pair-range", "shufflePairs", SH, "the second choice misses an entry", "C88", "scale next fuel ((i + 1) * (i + 2)) s", "scale next fuel ((i + 1) * (i + 1)) s")
m("shuf-pair-swapped", "shufflePairs", SH, "quotient and remainder exchanged", "C88", "iterSwap l i (x / (i + 2))", "iterSwap l i (x % (i + 1))")
m("shuf-pair-step", "shufflePairs", SH, "one entry on after each pair", "C88", "shufflePairs next fuel k (i + 2) l s", "shufflePairs next fuel k (i + 1) l s")
m("shuf-even-first", "stdShuffle", SH, "the first swap is left out for even lists", "C88", "        | .ok l => shufflePairs next fuel ((l.length - 2) / 2) 2 l s", "        | .ok _ => shufflePairs next fuel ((l.length - 2) / 2) 2 l s")
m("shuf-odd-short", "stdShuffle", SH, "the last pair is left out", "C88", "    else shufflePairs next fuel ((l.length - 1) / 2) 1 l s", "    else shufflePairs next fuel ((l.length - 2) / 2) 1 l s")
m("shuf-branch", "stdShuffle", SH, "pairs are drawn for lists of any length", "C88", "  else if l.length ≤ (2 ^ 32 - 1) / l.length then ", "  else if 0 < l.length then ")
m("shuf-sort-unstable", "sliceSort", "Model/FiniteWidth.lean", "equal entries are reversed", "C88", "  l.insertionSort fun a b => sliceGreater wm big b a = false", "  l.insertionSort fun a b => sliceGreater wm big a b = true")

PR = "Model/PyRandom.lean"
m("pr-key-order", "keyWords", PR, "the highest word comes first", "C89", "n % 2 ^ 32 :: keyWords (n / 2 ^ 32)", "keyWords (n / 2 ^ 32) ++ [n % 2 ^ 32]")
m("pr-key-base", "keyWords", PR, "words of 31 bits", "C89", "n % 2 ^ 32 :: keyWords (n / 2 ^ 32)", "n % 2 ^ 31 :: keyWords (n / 2 ^ 31)")
m("pr-key-low", "keyWords", PR, "only the lowest word is used", "C89", "n % 2 ^ 32 :: keyWords (n / 2 ^ 32)", "[n % 2 ^ 32]")
m("pr-spread-shift", "spreadWord", PR, "shift by 29", "C89", "(y >>> 30)", "(y >>> 29)")
m("pr-spread-plain", "spreadWord", PR, "the old word is dropped", "C89", "x ^^^ ((y", "0 * x + ((y")
m("pr-wrap-front", "wrapFront", PR, "the last word is not copied", "C89", "then mt.set 0 (mt.getD 623 0) else mt", "then mt else mt")
m("pr-wrap-pos", "wrapPos", PR, "goes on at 0", "C89", "if 624 ≤ i + 1 then 1 else", "if 624 ≤ i + 1 then 0 else")
m("pr-key-const", "keyLoop", PR, "another factor", "C89", "spreadWord 1664525 ", "spreadWord 1664526 ")
m("pr-key-noj", "keyLoop", PR, "the position is not added", "C89", " + key.getD j 0 + j) %", " + key.getD j 0) %")
m("pr-key-nokey", "keyLoop", PR, "the key is not added", "C89", " + key.getD j 0 + j) %", " + j) %")
m("pr-key-wrapj", "keyLoop", PR, "the key is not repeated", "C89", "(if key.length ≤ j + 1 then 0 else j + 1)", "(j + 1)")
m("pr-num-const", "numLoop", PR, "another factor", "C89", "spreadWord 1566083941 ", "spreadWord 1566083943 ")
m("pr-num-add", "numLoop", PR, "the position is added", "C89", "+ (2 ^ 32 - i)) %", "+ i) %")
m("pr-of-start", "Mt.ofKey", PR, "another seed of the array", "C89", "(keyLoop key (max 624 key.length) (Mt.seed 19650218).words 1 0).1", "(keyLoop key (max 624 key.length) (Mt.seed 5489).words 1 0).1")
m("pr-of-steps", "Mt.ofKey", PR, "one step fewer", "C89", "⟨(numLoop 623 ", "⟨(numLoop 622 ")
m("pr-of-top", "Mt.ofKey", PR, "the first word is not set", "C89", ").2).set 0 (2 ^ 31), 624⟩", ").2), 624⟩")
m("pr-of-top0", "Mt.ofKey", PR, "the first word is 0", "C89", ").2).set 0 (2 ^ 31), 624⟩", ").2).set 0 0, 624⟩")
m("pr-of-pos", "Mt.ofKey", PR, "the words are used as they are", "C89", ").2).set 0 (2 ^ 31), 624⟩", ").2).set 0 (2 ^ 31), 0⟩")
m("pr-seed-sign", "pyRandom", PR, "negative seeds are 0", "C89", ".ofKey (keyWords z.natAbs)", ".ofKey (keyWords z.toNat)")
m("pr-seed-mt", "pyRandom", PR, "seeded as the C++ generator", "C89", ".ofKey (keyWords z.natAbs)", ".seed z.natAbs")
m("pr-pair-shift", "pairBits", PR, "26 and 27 bits", "C89", "(x >>> 5) * 67108864 + (y >>> 6)", "(x >>> 6) * 67108864 + (y >>> 5)")
m("pr-pair-factor", "pairBits", PR, "half the factor", "C89", "* 67108864 + (y >>> 6)", "* 33554432 + (y >>> 6)")
m("pr-rand-div", "Mt.random", PR, "divided by 2^53 - 1", "C89", "/ 9007199254740992, e", "/ 9007199254740991, e")
m("pr-rand-same", "Mt.random", PR, "one draw is used twice", "C89", "pairBits e.draw.1 e.draw.2.draw.1 : ℚ", "pairBits e.draw.1 e.draw.1 : ℚ")
m("pr-rand-state", "Mt.random", PR, "only one draw is used up", "C89", "9007199254740992, e.draw.2.draw.2)", "9007199254740992, e.draw.2)")
m("pr-bits-low", "Mt.bits", PR, "the lower bits are used", "C89", "(e.draw.1 >>> (32 - k), e.draw.2)", "(e.draw.1 % 2 ^ k, e.draw.2)")
m("pr-bits-zero", "Mt.bits", PR, "no bits take a draw", "C89", "if k = 0 then (0, e)", "if k = 0 then (0, e.draw.2)")
m("pr-bits-stay", "Mt.bits", PR, "the state is not advanced", "C89", "(e.draw.1 >>> (32 - k), e.draw.2)", "(e.draw.1 >>> (32 - k), e)")
m("pr-bits-join", "Mt.bits", PR, "the words overlap", "C89", "e.draw.1 + 2 ^ 32 * (Mt.bits", "e.draw.1 + 2 ^ 31 * (Mt.bits")
m("pr-below-le", "Mt.below", PR, "n itself is accepted", "C89", "if n ≤ (e.bits n.size).1 then", "if n < (e.bits n.size).1 then")
m("pr-below-same", "Mt.below", PR, "the rejected value is tried again", "C89", "Mt.below n fuel (e.bits n.size).2", "Mt.below n fuel e")
m("pr-below-size", "Mt.below", PR, "one bit more", "C89", "if n ≤ (e.bits n.size).1 then Mt.below n fuel (e.bits n.size).2 else some (e.bits n.size)", "if n ≤ (e.bits (n.size + 1)).1 then Mt.below n fuel (e.bits (n.size + 1)).2 else some (e.bits (n.size + 1))")
m("pr-range-empty", "Mt.randrange", PR, "an empty range gives 0", "C89", "if n = 0 then some (.error .valueError) else", "if n = 0 then some (.ok (0, e)) else")
m("pr-new-any", "Mt.belowNew", PR, "the same position is accepted", "C89", "if b = a then Mt.belowNew n a turns fuel e' else some (b, e')", "some (b, e')")
m("pr-samp-last", "Mt.sample2", PR, "the second last element moves", "C89", "if b = a then n - 1 else b), e)", "if b = a then n - 2 else b), e)")
m("pr-samp-range", "Mt.sample2", PR, "the second draw is from all", "C89", "match e.below (n - 1) fuel with", "match e.below n fuel with")
m("pr-samp-shift", "Mt.sample2", PR, "elements behind the first are moved up", "C89", "(a, if b = a then n - 1 else b)", "(a, if a ≤ b then b + 1 else b)")
m("pr-samp-few", "Mt.sample2", PR, "one element suffices", "C89", "if n < 2 then some (.error .valueError)", "if n < 1 then some (.error .valueError)")
m("pr-samp-branch", "Mt.sample2", PR, "the list is used up to 20", "C89", "if n ≤ 21 then", "if n ≤ 20 then")
m("pr-choice-nearest", "Mt.choice", PR, "rounded up", "C89", "(roundTo 53 (e.random.1 * n)).floor.toNat", "(roundTo 53 (e.random.1 * n)).ceil.toNat")

PN = "Model/PyNode.lean"
m("nd-fits", "fitsIndex", PN, "positions of 32 bits", "C90", "-2 ^ 63 ≤ z ∧ z < 2 ^ 63", "-2 ^ 31 ≤ z ∧ z < 2 ^ 31")
m("nd-empty", "nodeCall", PN, "Node() has the parent 0", "C90", "| [] => nodeMake (-1) (-1) (-1)", "| [] => nodeMake (-1) (-1) 0")
m("nd-parent", "nodeCall", PN, "Node(p) takes p for a child", "C90", "if fitsIndex p then nodeMake (-1) (-1) p else", "if fitsIndex p then nodeMake p (-1) (-1) else")
m("nd-children", "nodeCall", PN, "the children are exchanged", "C90", "then nodeMake x y (-1) else", "then nodeMake y x (-1) else")
m("nd-both", "nodeCall", PN, "the children are exchanged", "C90", "then nodeMake x y p else", "then nodeMake y x p else")
m("nd-copy", "nodeCall", PN, "a copy has no parent", "C90", "| [.node n] => .ok n ", "| [.node n] => .ok { n with parent := none } ")
m("nd-none-number", "storedIndex", PN, "none is stored as 0", "C90", "| none => -1", "| none => 0")
m("nd-state-order", "Node.state", PN, "the children are exchanged", "C90", "((storedIndex n.c0, storedIndex n.c1), storedIndex n.parent)", "((storedIndex n.c1, storedIndex n.c0), storedIndex n.parent)")
m("nd-state-parent", "Node.state", PN, "the parent is not pickled", "C90", "((storedIndex n.c0, storedIndex n.c1), storedIndex n.parent)", "((storedIndex n.c0, storedIndex n.c1), -1)")
m("nd-entry-default", "getNode", PN, "None is 0", "C90", "[.seq [x.getD (-1), y.getD (-1)], .int (z.getD (-1))]", "[.seq [x.getD (-1), y.getD (-1)], .int (z.getD 0)]")
m("nd-entry-order", "getNode", PN, "the parent comes first", "C90", "  | .items [x, y, z] =>", "  | .items [z, x, y] =>")
m("nd-text-parent", "Node.text", PN, "the parent is not shown", "C90", "\"Node(parent=\".toList ++ posText n.parent ++", "\"Node(parent=\".toList ++")
m("nd-text-sep", "Node.text", PN, "no comma between the children", "C90", "posText n.c0 ++ \", \".toList ++", "posText n.c0 ++")
m("nd-text-none", "posText", PN, "None is shown as 0", "C90", "| none => \"None\".toList", "| none => \"0\".toList")
m("nd-dec", "decChars", PN, "the digits are in the wrong order", "C90", "(Nat.digits 10 n).reverse.map", "(Nat.digits 10 n).map")
m("nd-same-sign", "Node.isValid", "Model/Tree.lean", "one child is accepted", "C90", "if n.c0.isNone != n.c1.isNone then false", "if n.c0.isNone && !n.c1.isNone then false")
m("nd-parent-child", "Node.isValid", "Model/Tree.lean", "the parent may be the second child", "C90", "(n.parent == n.c0 || n.parent == n.c1)", "(n.parent == n.c0)")
m("core-node-zero-again", "Node.ofInt", "Model/Tree.lean", "position 0 is null", "C90", "if x < 0 then none", "if x ≤ 0 then none", tightened=["C90_make"])

BL = "Model/Blocks.lean"
m("bl-neg", "DBits.neg", BL, "the highest bit is not inverted", "C91", "x ^^^ (2 ^ w - 1)", "x ^^^ (2 ^ (w - 1) - 1)")
m("bl-blocks", "DBits.numBlocks", BL, "no block for the rest", "C91", "n / w + if n % w ≠ 0 then 1 else 0", "n / w")
m("bl-blocks-more", "DBits.numBlocks", BL, "always one block more", "C91", "n / w + if n % w ≠ 0 then 1 else 0", "n / w + 1")
m("bl-test", "DBits.test", BL, "the bit above", "C91", "fun x => x &&& 1 <<< (i % w) != 0", "fun x => x &&& 1 <<< (i % w + 1) != 0")
m("bl-set", "DBits.setBit", BL, "the bit is flipped", "C91", "(x ||| 1 <<< (i % w))", "(x ^^^ 1 <<< (i % w))")
m("bl-set-first", "DBits.setBit", BL, "the first block is changed", "C91", "b.blocks.set (i / w) (x", "b.blocks.set 0 (x")
m("bl-zip-short", "DBits.zipBlocks", BL, "missing blocks are zero", "C91", "  | _ :: _, [] => none\n  | x :: a, y :: b => (zipBlocks", "  | x :: a, [] => (zipBlocks f a []).map (f x 0 :: ·)\n  | x :: a, y :: b => (zipBlocks")
m("bl-size", "DBits.zip", BL, "the size is that of the longer operand", "C91", "(⟨·, a.size⟩)", "(⟨·, max a.size b.size⟩)")
m("bl-and", "DBits.and", BL, "or", "C91", "def and (a b : DBits) : Option DBits := zip (fun x y => x &&& y) a b", "def and (a b : DBits) : Option DBits := zip (fun x y => x ||| y) a b")
m("bl-sub", "DBits.sub", BL, "symmetric difference", "C91", "def sub (a b : DBits) : Option DBits := zip (fun x y => x &&& neg w y) a b", "def sub (a b : DBits) : Option DBits := zip (fun x y => x ^^^ y) a b")
m("bl-unused", "DBits.zeroUnused", BL, "the unused bits stay", "C91", "[x &&& (1 <<< (b.size % w) - 1)]", "[x]")
m("bl-unused-mask", "DBits.zeroUnused", BL, "one bit more is kept", "C91", "(1 <<< (b.size % w) - 1)]", "(1 <<< (b.size % w + 1) - 1)]")
m("bl-unused-always", "DBits.zeroUnused", BL, "full blocks are cleared", "C91", "  if b.size % w = 0 then some b\n  else b.blocks", "  if b.size = 0 then some b\n  else b.blocks")
m("bl-pop", "DBits.popcount", BL, "the highest bit is not counted", "C91", "(List.range w).countP fun j => x.testBit j", "(List.range (w - 1)).countP fun j => x.testBit j")
m("bl-subset-skip", "DBits.subsetBlocks", BL, "only the first block", "C91", "then some false else subsetBlocks a b", "then some false else some true")
m("bl-subset-flip", "DBits.subsetBlocks", BL, "the other inclusion", "C91", "  | x :: a, y :: b => if x &&& neg w y ≠ 0 then some false else subsetBlocks", "  | x :: a, y :: b => if y &&& neg w x ≠ 0 then some false else subsetBlocks")
m("bl-proper-last", "DBits.properBlocks", BL, "only the last block tells", "C91", "(proper || decide (y &&& neg w x ≠ 0))", "(decide (y &&& neg w x ≠ 0))")
m("bl-proper-start", "DBits.isProperSubset", BL, "equal ones are proper subsets", "C91", "properBlocks w a.blocks b.blocks false", "properBlocks w a.blocks b.blocks true")
m("bl-inter-first", "DBits.intersects", BL, "only the first block", "C91", "(List.zipWith (fun x y => x &&& y) a.blocks b.blocks).any", "((List.zipWith (fun x y => x &&& y) a.blocks b.blocks).take 1).any")
m("bl-low", "DBits.lowestBit", BL, "the highest bit", "C91", "((List.range w).find? fun", "((List.range w).reverse.find? fun")
m("bl-from", "DBits.findFrom", BL, "the position in the block only", "C91", "    (k + i) * w + lowestBit w", "    i * w + lowestBit w")
m("bl-next-last", "DBits.findNext", BL, "the last bit is not found", "C91", "if b.size - 1 ≤ p ∨ b.size = 0 then", "if b.size - 2 ≤ p ∨ b.size = 0 then")
m("bl-next-same", "DBits.findNext", BL, "the search goes on in the same block", "C91", "else findFrom w b ((p + 1) / w + 1)", "else findFrom w b ((p + 1) / w)")
m("bl-next-two", "DBits.findNext", BL, "a block is left out", "C91", "else findFrom w b ((p + 1) / w + 1)", "else findFrom w b ((p + 1) / w + 2)")
m("bl-next-off", "DBits.findNext", BL, "counted from the block", "C91", "some (p + 1 + lowestBit w (x >>>", "some (p / w * w + lowestBit w (x >>>")
m("bl-next-stop", "DBits.findNext", BL, "the end is not checked", "C91", "if b.size - 1 ≤ p ∨ b.size = 0 then some none", "if b.size = 0 then some none")
m("bl-text-order", "DBits.ofString", BL, "the text is not reversed", "C91", "boostOfString w s.reverse", "boostOfString w s")
m("bl-text-other", "DBits.boostOfString", BL, "other characters are ones", "C91", "'0' = '1' then setBit w b i else some b", "'0' ≠ '0' then setBit w b i else some b")
m("bl-pos-check", "DBits.ofPositions", BL, "the size itself is accepted", "C91", "if size ≤ x then some (.inl", "if size < x then some (.inl")
m("bl-str", "DBits.toStr", BL, "zeros and ones exchanged", "C91", "s ++ [if x then '1' else '0']", "s ++ [if x then '0' else '1']")
m("bl-get-neg", "Bits.pyGetItem", BL, "negative indices count from the end", "C91", "if i < 0 ∨ 2 ^ 64 ≤ i then .error \"TypeError\"\n  else", "if i < 0 ∧ -b.length ≤ i then .ok (b.getD (b.length + i).toNat false)\n  else if i < 0 ∨ 2 ^ 64 ≤ i then .error \"TypeError\"\n  else")
m("bl-get-error", "Bits.pyGetItem", BL, "TypeError outside", "C91", "| none => .error \"IndexError\"", "| none => .error \"TypeError\"")
m("bl-iter-skip", "Bits.pyIterFrom", BL, "every other bit", "C91", "(pyIterFrom b fuel (i + 1))", "(pyIterFrom b fuel (i + 2))")
m("bl-contains", "Bits.pyContains", BL, "positions are found", "C91", "fun l => l.any fun y => decide ((if y then 1 else 0) = x)", "fun l => l.getD x.toNat false")
m("bl-bool", "Bits.pyBool", BL, "whether a bit is set", "C91", "decide (b.length ≠ 0)", "b.any id")

# Definitions that no earlier attempt had changed.
def d(name, definition, file, edit, breaks, old, new, **kw):
    m("rest-" + name, definition, "Model/" + file + ".lean", edit, breaks, old, new, **kw)
d("size-h", "calcsize", "Buffer", "short has four bytes", "C53", "if c ∈ ['h', 'H', 'e'] then some 2", "if c ∈ ['h', 'H', 'e'] then some 4")
d("size-d", "calcsize", "Buffer", "double has four bytes", "C53", "else if c ∈ ['i', 'I', 'f'] then some 4\n  else if c ∈ ['l', 'L', 'q', 'Q', 'n', 'N', 'd', 'P'] then some 8", "else if c ∈ ['i', 'I', 'f', 'd'] then some 4\n  else if c ∈ ['l', 'L', 'q', 'Q', 'n', 'N', 'P'] then some 8")
d("buf-x", "Buffer.get", "Buffer", "padding can be read", "C53", "    if b.dtype = 'x' then .error .indexError\n    else .ok (cd.dec", "    .ok (cd.dec")
d("buf-take", "Buffer.get", "Buffer", "all bytes from the slot on are read", "C53", "((b.bytes.drop off).take b.slot))", "(b.bytes.drop off))")
d("ship-index", "ShipErr.toPy", "Anneal", "IndexError", "C55", "  | .index => some (.error .valueError)", "  | .index => some (.error .indexError)")
d("ship-make", "ShipErr.toPy", "Anneal", "IndexError", "C55", "  | .make => some (.error .valueError)", "  | .make => some (.error .indexError)")
d("inf-empty", "infTotalWith", "Anneal", "no paths for no parts", "C43", "let paths := if done.isEmpty then List.replicate n [] else done.map InfPartOf.path", "let paths := done.map InfPartOf.path")
d("fw-zero", "optimizeFwWith", "Anneal", "max_width 0 is rejected", "C55", "      if maxWidth < 0 then (sys, some (.error (.lib .valueError)))\n      else\n        match PyCM.make", "      if maxWidth ≤ 0 then (sys, some (.error (.lib .valueError)))\n      else\n        match PyCM.make")
d("fw-slices", "fwAnnealWith", "Anneal", "the slices of the current tree are returned", "C43", "o.opt.core.inf.ctree.nInds o.opt.core.minSlices with", "o.opt.core.inf.ctree.nInds o.opt.core.slices with")
d("name-dot", "pathName", "AppIO", "the part . counts as a name", "C50", "(((splitSlash p).filter fun l => l ≠ [] ∧ l ≠ [46]).getLast?).getD []", "(((splitSlash p).filter fun l => l ≠ []).getLast?).getD []")
d("name-first", "pathName", "AppIO", "the first part is the name", "C50", "l ≠ [46]).getLast?).getD []", "l ≠ [46]).head?).getD []")
d("dup", "hasDuplicates", "Bitset", "only neighbours are compared", "C01", "  | x :: l => decide (x ∈ l) || hasDuplicates l", "  | x :: l => decide (l.head? = some x) || hasDuplicates l")
d("transpose", "transposeNames", "Circuit", "missing names are accepted", "C37", "  if ∃ x ∈ new, x ∉ inds then .error .valueError else a.transpose", "  a.transpose")
d("allequal", "allEqual", "Circuit", "only the first entry is compared", "C37", "decide (∀ k < a.shape.prod, a.data k = b.data k)", "decide (a.data 0 = b.data 0)")
d("reseed", "simplifyAll", "Circuit", "one pass", "C37", "| .ok (all, true) => simplifyAll reseed useMatrix fuel (reseed s) all", "| .ok (all, true) => some (.ok (all, s))")
d("group", "groupItems", "CircuitLoad", "one group", "C38", "    if p e then (e :: l).filter p ++ (e :: l).filter fun x => !p x else ((e :: l).filter fun x => !p x) ++ (e :: l).filter p", "    (e :: l).filter p")
d("remap", "remapOpen", "CircuitLoad", "no names are exchanged", "C38", "let remap := dupdate [] ((hmap.filter p).map fun e => (e.2, e.1))", "let remap := dupdate [] ((hmap.filter p).map fun e => (e.2, e.2))")
d("dimlast", "dictLast", "Contract", "the first entry counts", "C32", "(l.reverse.find? (·.1 == x)).map Prod.snd", "(l.find? (·.1 == x)).map Prod.snd")
d("counts", "countsOk", "Contract", "a count of zero is accepted", "C31", "decide (∀ x ∈ xs.toFinset ∩ ys.toFinset, 0 < hc x)", "decide (∀ x ∈ xs.toFinset ∩ ys.toFinset, 0 ≤ hc x)")
d("out-inds", "contractInds", "Contract", "all output indices are returned", "C31", "      | .ok ts => .ok (ts, out ∩ ts.flatten.toFinset)", "      | .ok ts => .ok (ts, out)")
d("projs-none", "projsTrue", "CostModel", "None is true", "C58", "def projsTrue : Option PyNum → Bool\n  | none => false", "def projsTrue : Option PyNum → Bool\n  | none => true")
d("sparse-empty", "sparseTrue", "CostModel", "the empty set is true", "C58", "  | some s => decide (s ≠ ∅)", "  | some _ => true")
d("py-width", "PyFwCost.width", "CostModel", "the width of all indices", "C58", "  let b ← bitsIn order inds\n  return core.width log2 d b", "  let b ← bitsIn order order\n  return core.width log2 d b")
d("diag", "firstDiagonal", "Decompose", "the first pair", "C33", "      | .ok false => firstDiagonal a l", "      | .ok false => .ok (some (i, j))")
d("show-look", "runShow", "Display", "nothing is shown", "C83", "runShow core seq rows p es (s.1, showStep p s.1 s.2)", "runShow core seq rows p es s")
d("show-ended", "ShowSt.ended", "Display", "a failure is not the end", "C83", "  | .failed _ => true\n", "  | .failed _ => false\n")
d("minus", "ISet.minus?", "FiniteWidth", "nothing is skipped", "C22", "  | some k => xs \\ k", "  | some _ => xs")
d("ne", "Mpf.ne", "FixedFloat", "equal", "C47", "def Mpf.ne (x y : Mpf) : Bool := mpfrCmp x y ≠ 0", "def Mpf.ne (x y : Mpf) : Bool := mpfrCmp x y = 0")
d("isinf", "Mpf.isinf", "FixedFloat", "NaN is infinite", "C47", "def Mpf.isinf : Mpf → Bool\n  | .inf _ => true", "def Mpf.isinf : Mpf → Bool\n  | .nan _ => true\n  | .inf _ => true")
d("sign", "isSign", "FixedFloat", "a blank is no sign", "C54", "c = '+' || c = '-' || c = ' '", "c = '+' || c = '-'")
d("f128", "float128", "Float", "113 bits", "C66", "def float128 : FloatFormat := ⟨64, 16383⟩", "def float128 : FloatFormat := ⟨113, 16383⟩")
d("f32", "float32", "Float", "23 bits", "C66", "def float32 : FloatFormat := ⟨24, 127⟩", "def float32 : FloatFormat := ⟨23, 127⟩")
d("f1024", "float1024", "Float", "smaller range", "C66", "def float1024 : FloatFormat := ⟨1024, 2 ^ 30 - 2⟩", "def float1024 : FloatFormat := ⟨1024, 1023⟩")
d("lower", "startsWith", "FloatClass", "case matters", "C75", "(cs.take w.length).map lowerC = w", "cs.take w.length = w")
d("zeros", "dropZeros", "FloatClass", "zeros stay", "C75", "(ds.reverse.dropWhile (· = 0)).reverse", "ds")
d("frac", "takeFrac", "FloatClass", "a comma is a point", "C75", "  | '.' :: cs => takeDigs base cs", "  | ',' :: cs => takeDigs base cs")
d("fuse-zero", "fuseWidth", "Fuse", "dimension 0 is accepted", "C34", "  if ∃ x ∈ xs, dims x = 0 then .error .valueError else .ok", "  .ok")
d("fuse-exclude", "fuse", "Fuse", "unknown indices may be excluded", "C34", "  if ¬ exclude.toFinset ⊆ tsInds.flatten.toFinset then some (.error .valueError)", "  if False then some (.error .valueError)")
d("fuse-dims", "fuse", "Fuse", "missing dimensions are accepted", "C34", "  else if ∃ x ∈ tsInds.flatten, dims.get? x = none then some (.error .valueError)", "  else if False then some (.error .valueError)")
d("close-hyper", "hyperCacheIsCloseTo", "FwValid", "always close", "C24", "(_atol : ℝ) : Bool := decide (x = y)", "(_atol : ℝ) : Bool := decide (x = x)")
d("close-width", "widthCacheIsCloseTo", "FwValid", "always close", "C24", "(x y : List ℝ) (atol : ℝ) : Bool := allClose x y atol", "(x y : List ℝ) (atol : ℝ) : Bool := allClose x x atol")
d("item-key", "item", "LoadObj", "IndexError for dictionaries", "C63", "    | Option.none => .error .keyError", "    | Option.none => .error .indexError")
d("members-set", "members", "LoadObj", "sets have no members", "C63", "  | .set xs => some xs\n", "  | .set _ => some []\n")
d("members-dict", "members", "LoadObj", "the members are the values", "C63", "  | .dict ks _ => some ks\n", "  | .dict _ vs => some vs\n")
d("strip", "strip", "LoadText", "only at the start", "C50", "((s.dropWhile isSpace).reverse.dropWhile isSpace).reverse", "s.dropWhile isSpace")
d("colors", "initColors", "MergeSplit", "one colour", "C29", "⟨List.range n, fun t => if t < n then some t else none,", "⟨List.range n, fun t => if t < n then some 0 else none,")
d("chr", "chr", "Names", "one code point more", "C35", "0 ≤ i ∧ i ≤ 1114111", "0 ≤ i ∧ i ≤ 1114112")
d("pyindex", "pyIndex", "Names", "no negative indices", "C35", "else if 0 ≤ l.length + i then l[(l.length + i).toNat]? else none)", "else none)")
d("join", "joinWith", "Names", "the separator is left out", "C35", "  | a :: b :: l => a ++ sep :: joinWith sep (b :: l)", "  | a :: b :: l => a ++ joinWith sep (b :: l)")
d("cast", "NDArray.castGet", "NetEq", "no broadcasting", "C70", "if d = 1 then 0 else i", "i")
d("superset", "issuperset", "OrderedFrozenSet", "the other inclusion", "C03", "decide (l.toFinset ⊆ s.set)", "decide (s.set ⊆ l.toFinset)")
d("hash-set", "hash", "OrderedFrozenSet", "the hash is reversed", "C04", "def hash {H : Type} (h : List α → H) (s : OFS α) : H := h s.order", "def hash {H : Type} (h : List α → H) (s : OFS α) : H := h s.order.reverse")
d("allocates", "allocates", "Parallel", "always", "C42", "  | [c] => decide (0 < n * (calcsize c).getD 0)", "  | [_] => true")
d("buffers-leak", "makeBuffers", "Parallel", "nothing stays after an error", "C42", "(if allocates n dtype then sys.link else sys, .error e)", "(sys, .error e)")
d("clash", "keywordClash", "Parallel", "idx may be given", "C41", "[\"idx\", \"status\", \"stop\"] ++ kwargs ++ bufs", "[\"status\", \"stop\"] ++ kwargs ++ bufs")
d("abandon", "Sys.abandon", "Parallel", "the timer is always cancelled", "C42", "  if t = .armed then sys else { sys with timers := sys.timers - 1 }", "  { sys with timers := sys.timers - 1 }")
d("iterator", "PyTree.ofIterator", "PathBuild", "an iterator with one step is taken", "C51", "  | [_] => .error .valueError", "  | [s] => PyTree.ofPath enum [s] tsInds dims output check")
d("py-inds", "inds", "PathBuild", "the last index is left out", "C07", "((List.range t.core.nInds).filter (· ∈ t.core.inds p))", "((List.range (t.core.nInds - 1)).filter (· ∈ t.core.inds p))")
d("same", "sameEntries", "PathInts", "the absolute values count", "C86", "  | [a, b] => a == b", "  | [a, b] => a.natAbs == b.natAbs")
d("pop-neg", "pyPop", "PathInts", "the rest is reversed", "C86", "    | some a => some (a, l.eraseIdx j)", "    | some a => some (a, (l.eraseIdx j).reverse)")
d("contract-z", "contractZ", "PathInts", "all output indices are returned", "C86", "      | .ok ts => .ok (ts.map Prod.snd, out ∩ (ts.map Prod.snd).flatten.toFinset, ts.map Prod.fst)", "      | .ok ts => .ok (ts.map Prod.snd, out, ts.map Prod.fst)")
d("merge-z", "mergeAllZ", "PathInts", "the number of the path stays", "C86", "      match mergeAllZ n (i + 1) m paths with", "      match mergeAllZ n i m paths with")
d("cache", "PyTree.cache", "Pickle", "one tensor less", "C26", "⟨t.dims, t.nTensors, t.tensorsPos, t.indsOrder⟩", "⟨t.dims, t.nTensors - 1, t.tensorsPos, t.indsOrder⟩")
d("rc-state", "rcAll", "RandomPath", "the generator starts again for each component", "C30", "      match rcAll g fuel s st rest with\n      | none => none\n      | some (.error e) => some (.error e)\n      | some (.ok (s, paths)) => some (.ok (s, path :: paths))", "      match rcAll g fuel s st rest with\n      | none => none\n      | some (.error e) => some (.error e)\n      | some (.ok (s, paths)) => some (.ok (s, paths ++ [path]))")
d("sample-more", "rngSample", "RandomTensors", "too many are accepted", "C60", "  if k < 0 ∨ (l.length : ℤ) < k then .error .valueError", "  if k < 0 then .error .valueError")
d("permute", "permuteAll", "RandomTensors", "the order stays", "C60", "    .ok (ys :: zs, s)", "    .ok (xs :: zs, s)")
d("owner", "byOwner", "RandomTensors", "numbers from one", "C60", "((rows.zipIdx).flatMap", "((rows.zipIdx 1).flatMap")
d("state-order", "stateOfInput", "Sampler", "no qubits", "C65", "  | .state steps qubits => some (.ok (steps, qubits))", "  | .state steps _ => some (.ok (steps, ∅))")
d("amp", "amplitudeOf", "Sampling", "the shape is not checked", "C65", "if a.shape = [] then .ok (a.get []) else .error .valueError", ".ok (a.get [])")
d("setbits", "setBits", "Sampling", "the places are counted", "C65", "setBits (b.set l v) loc vs", "setBits (b.set l (1 - v)) loc vs")
d("mask-rows", "maskRows", "Svd", "the length of the mask is not checked", "C34", "  | n :: rest =>\n    if mask.length ≠ n then .error .indexError\n    else", "  | n :: rest =>\n    if mask.length > n then .error .indexError\n    else")
d("inds-at", "indsAt", "TreeCheck", "KeyError", "C61", "  match pyPos t.core.tree.size key with\n  | none => .error .indexError", "  match pyPos t.core.tree.size key with\n  | none => .error .keyError")
d("shared-order", "sharedNames", "TreeCheck", "in the other order", "C61", "return some (enum xs ++ ys)", "return some (ys ++ enum xs)")
d("opt-none", "optional", "TreeCheck", "nothing to check is a failure", "C61", "  | none => .ok true\n  | some a => test a", "  | none => .ok false\n  | some a => test a")
d("num-value", "numValue", "Twister", "base 16", "C87", "s.foldl (fun n c => 10 * n + (c - 48)) 0", "s.foldl (fun n c => 16 * n + (c - 48)) 0")
d("read-words", "readWords", "Twister", "words that are not read become zero", "C87", "(extractNumber s).1.getD w ::", "(extractNumber s).1.getD 0 ::")
d("sparse-projs", "sparseWidthModel", "Width", "no projections are accepted", "C20", "  else if nProjs = 0 then none\n", "")
d("width-zero", "simpleWidthModel", "Width", "max_width 0 is rejected", "C20", "(maxWidth : W) : Option (WidthModel W) :=\n  if maxWidth < 0 then none\n  else some ⟨simpleWidth", "(maxWidth : W) : Option (WidthModel W) :=\n  if maxWidth ≤ 0 then none\n  else some ⟨simpleWidth")

CT = "Model/CostText.lean"
m("ct-round", "tenRound", CT, "rounded down", "C92", "(roundEven ((n : ℚ) / 10 ^ k)).toNat", "n / 10 ^ k")
m("ct-trim", "trimZeros", CT, "zeros at the beginning are left out", "C92", "(s.reverse.dropWhile (· == 48)).reverse", "s.dropWhile (· == 48)")
m("ct-trim-not", "trimZeros", CT, "zeros are kept", "C92", "(s.reverse.dropWhile (· == 48)).reverse", "s")
m("ct-pointed", "pointed", CT, "always a point", "C92", "if s = [] then [] else 46 :: s", "46 :: s")
m("ct-two", "twoDigits", CT, "no zero before one digit", "C92", "if n < 10 then 48 :: decText n else decText n", "decText n")
m("ct-sci-exp", "sciText", CT, "a capital E", "C92", "(101 :: 43 :: twoDigits e)", "(69 :: 43 :: twoDigits e)")
m("ct-sci-minus", "sciText", CT, "negative exponents", "C92", "(101 :: 43 :: twoDigits e)", "(101 :: 45 :: twoDigits e)")
m("ct-sci-two", "sciText", CT, "two digits before the point", "C92", "(decText m).take 1 ++ (pointed (trimZeros ((decText m).drop 1))", "(decText m).take 2 ++ (pointed (trimZeros ((decText m).drop 2))")
m("ct-stream-seven", "streamText", CT, "seven digits are written in full", "C92", "if c < 10 ^ 6 then decText c", "if c < 10 ^ 7 then decText c")
m("ct-stream-carry", "streamText", CT, "the exponent does not grow", "C92", "sciText (10 ^ 5) (Nat.log 10 c + 1)", "sciText (10 ^ 5) (Nat.log 10 c)")
m("ct-stream-digits", "streamText", CT, "five digits", "C92", "else sciText (tenRound c (Nat.log 10 c - 5)) (Nat.log 10 c)", "else sciText (tenRound c (Nat.log 10 c - 4)) (Nat.log 10 c)")
m("ct-fixed-int", "fixedText", CT, "no digits after the point", "C92", "decText c ++ 46 :: List.replicate 308 48", "decText c")
m("ct-fixed-exp", "fixedText", CT, "307 digits after the point", "C92", "decText c ++ 46 :: List.replicate 308 48", "decText c ++ 46 :: List.replicate 307 48")
m("ct-fixed-nopoint", "fixedText", CT, "no point", "C92", "decText c ++ 46 :: List.replicate 308 48", "decText c ++ List.replicate 308 48")
m("ct-shown", "shownText", CT, "float1024 like the others", "C92", "if fixed then fixedText c else streamText c", "streamText c")
m("ct-value", "Dec.value", CT, "the exponent counts digits after the point", "C92", "d.coeff * (10 : ℚ) ^ d.exp", "d.coeff * (10 : ℚ) ^ (-d.exp)")
m("ct-frac", "fracPart", CT, "a comma", "C92", "if c = 46 then (r.takeWhile", "if c = 44 then (r.takeWhile")
m("ct-whole-empty", "wholeNum", CT, "no digits are zero", "C92", "if r ≠ [] ∧ r.all isNum = true then", "if r.all isNum = true then", note="no text that is written has an exponent without digits")
m("ct-signed", "signedNum", CT, "the minus is ignored", "C92", "(wholeNum r).map fun n => -(n : ℤ)", "(wholeNum r).map fun n => (n : ℤ)")
m("ct-signed-plus", "signedNum", CT, "a plus is not read", "C92", "if c = 43 then (wholeNum r).map fun n => (n : ℤ)\n    else if", "if")
m("ct-exp-lower", "expPart", CT, "only a capital E", "C92", "if c = 101 ∨ c = 69 then", "if c = 69 then")
m("ct-exp-upper", "expPart", CT, "only a small e", "C92", "if c = 101 ∨ c = 69 then", "if c = 101 then")
m("ct-of-frac", "Dec.ofText", CT, "digits after the point do not count", "C92", "e - ((fracPart (t.dropWhile isNum)).1.length : ℤ)", "e")
m("ct-of-int", "Dec.ofText", CT, "only the digits before the point", "C92", "⟨numValue (t.takeWhile isNum ++ (fracPart (t.dropWhile isNum)).1), e", "⟨numValue (t.takeWhile isNum), e")
m("ct-dot-seven", "Dec.dot", CT, "seven zeros after the point", "C92", "-6 < d.exp + (decText", "-7 < d.exp + (decText")
m("ct-dot-always", "Dec.dot", CT, "always in full", "C92", "if d.exp ≤ 0 ∧ -6 < d.exp + (decText d.coeff).length then", "if True then")
m("ct-dot-sci", "Dec.dot", CT, "always scientific", "C92", "if d.exp ≤ 0 ∧ -6 < d.exp + (decText d.coeff).length then", "if False then")
m("ct-dot-pos", "Dec.dot", CT, "positive exponents in full", "C92", "if d.exp ≤ 0 ∧ -6 < d.exp", "if -6 < d.exp")
m("ct-place-zero", "placePoint", CT, "a zero is missing", "C92", "48 :: 46 :: (List.replicate (-dot).toNat 48 ++ s)", "48 :: 46 :: (List.replicate (-dot - 1).toNat 48 ++ s)")
m("ct-place-lead", "placePoint", CT, "no zero before the point", "C92", "48 :: 46 :: (List.replicate", "46 :: (List.replicate")
m("ct-place-last", "placePoint", CT, "a point at the end", "C92", "else if (s.length : ℤ) ≤ dot then", "else if (s.length : ℤ) < dot then")
m("ct-plus", "plusText", CT, "no plus", "C92", "if 0 ≤ z then 43 :: decText z.toNat", "if 0 ≤ z then decText z.toNat")
m("ct-plus-neg", "plusText", CT, "no minus", "C92", "else 45 :: decText (-z).toNat", "else decText (-z).toNat")
m("ct-str-exp", "Dec.str", CT, "a small e", "C92", "def Dec.str (d : Dec) : List ℕ := d.text 69", "def Dec.str (d : Dec) : List ℕ := d.text 101")
m("ct-str-off", "Dec.text", CT, "the exponent of the last digit", "C92", "plusText (d.exp + (decText d.coeff).length - d.dot)", "plusText d.exp")
m("ct-fit-more", "Dec.fit", CT, "one digit more is kept", "C92", "  if (decText d.coeff).length ≤ p then d\n", "  if (decText d.coeff).length ≤ p + 1 then d\n")
m("ct-fit-carry", "Dec.fit", CT, "the carry is not dropped", "C92", "⟨10 ^ (p - 1), d.exp", "⟨10 ^ p, d.exp")
m("ct-fit-carry-kept", "Dec.fit", CT, "another digit after a carry", "C92", "  else if tenRound d.coeff ((decText d.coeff).length - p) = 10 ^ p then ⟨10 ^ (p - 1), d.exp + ((decText d.coeff).length - p : ℕ) + 1⟩\n", "")
m("ct-fit-none", "Dec.fit", CT, "no rounding", "C92", "  if (decText d.coeff).length ≤ p then d\n", "  if True then d\n")
m("ct-add-27", "Dec.add", CT, "27 digits", "C92", "Dec.fit 28 ⟨a.coeff", "Dec.fit 27 ⟨a.coeff")
m("ct-short-four", "shortCost", CT, "four digits", "C92", "(d.fit 3).text 101", "(d.fit 4).text 101")
m("ct-short-upper", "shortCost", CT, "a capital E", "C92", "(d.fit 3).text 101", "(d.fit 3).text 69")
m("ct-short-str", "shortCost", CT, "all digits", "C92", "(d.fit 3).text 101", "d.text 101")
m("ct-add-max", "Dec.add", CT, "the larger exponent", "C92", "b.coeff * 10 ^ (b.exp - min a.exp b.exp).toNat, min a.exp b.exp⟩", "b.coeff * 10 ^ (b.exp - min a.exp b.exp).toNat, max a.exp b.exp⟩")
m("ct-add-coeff", "Dec.add", CT, "coefficients as they are", "C92", "⟨a.coeff * 10 ^ (a.exp - min a.exp b.exp).toNat + b.coeff", "⟨a.coeff + b.coeff")
m("ct-part", "partCost", CT, "a part without an optimizer is Decimal(0)", "C92", "p.bind fun c => Dec.ofText (shownText fixed c)", "Dec.ofText (shownText fixed (p.getD 0))")
m("ct-addcost", "addCost", CT, "a sum of zeros is Decimal(0)", "C92", "  | none, none => none\n", "")
m("ct-sum-start", "sumCost", CT, "starts from Decimal(0)", "C92", "l.foldl addCost none", "l.foldl addCost (some ⟨0, 0⟩)")
m("ct-sum-order", "sumCost", CT, "added from the end", "C92", "l.foldl addCost none", "l.foldr addCost none")
m("ct-part-value", "PartCost.value", CT, "a part without an optimizer counts one", "C92", "p.elim 0 Dec.value", "p.elim 1 Dec.value")
m("prog-part-total", "infResultJ", PG, "parts written like sums", "C74", "  disconnectedCosts := List.zipWith (partCostJ part) r.paths r.costs\n  disconnectedPaths := r.paths\n  finite := none", "  disconnectedCosts := List.zipWith (partCostJ decimal) r.paths r.costs\n  disconnectedPaths := r.paths\n  finite := none")
m("prog-total-part", "fwResultJ", PG, "sums written like parts", "C74", "  cost := costJ decimal r.paths r.cost\n  runtime := time\n  path := r.path\n  disconnectedCosts := List.zipWith (partCostJ part) r.paths r.costs\n  disconnectedPaths := r.paths\n  finite := some", "  cost := costJ part r.paths r.cost\n  runtime := time\n  path := r.path\n  disconnectedCosts := List.zipWith (partCostJ part) r.paths r.costs\n  disconnectedPaths := r.paths\n  finite := some")
m("sg-budget", "FwWalk.body", FWM, "one slice more than allowed", "C93", "match newSliceLoop g wm o.maxNew pos o.slices", "match newSliceLoop g wm (o.maxNew + 1) pos o.slices")
m("sg-restart", "FwWalk.body", FWM, "old slices given up", "C93", "match newSliceLoop g wm o.maxNew pos o.slices", "match newSliceLoop g wm o.maxNew pos ∅")
m("sg-extra", "FwWalk.body", FWM, "index 0 sliced too", "C93", "                    slices := newSlices }", "                    slices := insert 0 newSlices }")
m("sg-empty-too", "FwOpt.updateSlices", FWM, "slices looked for although nothing is sliced", "C93", "if updateSlices && decide (o.slices ≠ ∅) then", "if updateSlices then")
m("sg-flag", "FwOpt.updateSlices", FWM, "the flag is ignored", "C93", "if updateSlices && decide (o.slices ≠ ∅) then", "if decide (o.slices ≠ ∅) then")
m("sg-equal", "FwOpt.updateSlices", FWM, "slices of the same cost are taken", "C93", "if k.partialCost (o.inf.ctree.tree.size - 1) < o.inf.totalCost then", "if ¬ o.inf.totalCost < k.partialCost (o.inf.ctree.tree.size - 1) then")
m("sg-union", "FwOpt.updateSlices", FWM, "old slices kept beside the new ones", "C93", ".ok { o with slices := newSlices, inf := { o.inf with prng := s, cost := k } }", ".ok { o with slices := newSlices ∪ o.slices, inf := { o.inf with prng := s, cost := k } }")
m("sg-wide", "FwWalk.body", FWM, "slices added only by tensors that fit", "C93", "  else if 0 < o.maxNew then\n    -- 226-269", "  else if o.maxNew = 0 then\n    -- 226-269")
m("sg-pos", "FwWalk.body", FWM, "slices taken from the upper tensor", "C93", "let pos := ((newB \\ o.slices).minus? o.skip).positions", "let pos := ((indsA \\ o.slices).minus? o.skip).positions")
RP = "Model/Repr.lean"
m("repr-projs-none", "projsText", RP, "a missing n_projs is not shown", "C94", '| none => "None".toList\n  | some n => n.text f', "| none => []\n  | some n => n.text f", note="no text of a number is empty, so the repr still determines the model")
m("repr-projs-sep", "PyCost.tail", RP, "n_projs not named", "C94", '(", n_projs=".toList ++ (projsText', '("".toList ++ (projsText')
m("repr-sparse-lost", "PyCost.tail", RP, "sparse indices not shown", "C94", "(shows s ++ (", "([] ++ (")
m("repr-projs-lost", "PyCost.tail", RP, "n_projs not shown", "C94", "(projsText f m.nProjs ++ ", "([] ++ ")
m("repr-cost-lost", "PyCost.repr", RP, "cost type not shown", "C94", '("cost_type=".toList ++ (m.costType.toList ++ m.tail f shows))\n\n/-- finite', '("cost_type=".toList ++ m.tail f shows)\n\n/-- finite')
m("repr-width-lost", "PyFwCost.repr", RP, "width limit not shown", "C94", "(w m.maxWidth ++ (", "([] ++ (")
m("repr-width-type-lost", "PyFwCost.repr", RP, "width type not shown", "C94", "(m.widthType.toList ++\n", "([] ++\n")
m("repr-width-comma", "PyFwCost.repr", RP, "no comma after the width limit", "C94", '(", width_type=".toList', '("".toList')
m("repr-tree-nodes", "CTree.repr", RP, "number of tensors instead of nodes", "C94", "decChars c.tree.size", "decChars c.tree.nLeaves")
m("repr-tree-comma", "CTree.repr", RP, "numbers not separated", "C94", '"ContractionTree(n_nodes=".toList ++ (decChars c.tree.size ++ (", n_inds=".toList ++', '"ContractionTree(n_nodes=".toList ++ (decChars c.tree.size ++ ("".toList ++')
m("repr-net", "networkRepr", RP, "number of tensors twice", "C94", "decChars inds", "decChars tensors")
m("repr-opt", "optimizerRepr", RP, "cost model not shown", "C94", "(model ++", "([] ++")
m("repr-opt-tree", "optimizerRepr", RP, "tree not shown", "C94", "(c.repr ++ (", "([] ++ (")
m("repr-int", "intChars", RP, "no sign", "C94", "'-' :: decChars (n + 1)", "decChars (n + 1)")
m("repr-beta", "ProbCore.repr", RP, "all digits of beta", "C94", "(streamText b).map Char.ofNat", "decChars b")
m("repr-set-one", "tupleText", RP, "no comma after a single element", "C94", '(r a ++ ",)".toList)', '(r a ++ ")".toList)')
m("repr-set-first", "tupleText", RP, "first element left out", "C94", '| a :: b :: l => "(".toList ++ (r a ++ tupleTail r (b :: l))', '| a :: b :: l => "(".toList ++ tupleTail r (b :: l)')
m("repr-set-sep", "tupleTail", RP, "elements not separated", "C94", '| a :: l => ", ".toList ++ (r a ++', '| a :: l => [] ++ (r a ++')
m("repr-set-rest", "tupleTail", RP, "only every other element", "C94", '| a :: l => ", ".toList ++ (r a ++ tupleTail r l)', '| a :: l => ", ".toList ++ (r a ++ tupleTail r l.tail)\ntermination_by l => l.length\ndecreasing_by simp; omega')
m("repr-set-sorted", "OFS.repr", RP, "shown from the last", "C94", "tupleText r s.order", "tupleText r s.order.reverse")
m("need-one-more", "sliceLoop", "Model/FiniteWidth.lean", "one slice more than needed", "C95", "if w' ≤ wm.maxWidth then insert x slices", "if w' ≤ wm.maxWidth then insert x slices ∪ (l.take 1).toFinset")
m("need-strict", "sliceLoop", "Model/FiniteWidth.lean", "slices until the width is below the limit", "C95", "if w' ≤ wm.maxWidth then insert x slices", "if w' < wm.maxWidth then insert x slices")
m("need-small-first", "sliceGreater", "Model/FiniteWidth.lean", "the smallest dimension is sliced first", "C95", "then decide (wm.log2d y < wm.log2d x) else", "then decide (wm.log2d x < wm.log2d y) else")
m("need-unsorted", "sliceSort", "Model/FiniteWidth.lean", "not sorted", "C95", "  l.insertionSort fun a b => sliceGreater wm big b a = false", "  l")
m("need-all-tensors", "sliceVisit", "Model/FiniteWidth.lean", "tensors that fit are sliced too", "C95", "    if wm.maxWidth < wm.width xs then\n", "    if wm.maxWidth ≤ wm.width xs then\n")
