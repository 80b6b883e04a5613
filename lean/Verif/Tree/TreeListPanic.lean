import Verif.Tree.TreeListLemmas
import Verif.Compare.Props

/-! A history of `Put` and `Remove` after which `Put` of the tree list panics: the tree is then so deep
that `rootSizeTable` has no entry for the height. The tree alone is run here; that the tree list does the
same to its tree is proved. -/

namespace Verif.TreeList

open Tree Size DLL

variable {K V : Type} {cmp : K → K → Int}

/-- `limit` in a form that is quick to evaluate. -/
def fastLimit (h : Nat) : Option (Int × Int) :=
  if Nat.ble 2 h && Nat.blt h 64 then some (Int.ofNat (2 ^ h), Int.ofNat (2 ^ (h - 2) + 1)) else none

theorem fastLimit_eq : limit = fastLimit := by
  funext h
  by_cases hh : h < 64
  · revert h; decide +kernel
  · simp [limit, fastLimit, hh]

/-- `Put k` or `Remove k`. -/
inductive Move where
  | put (k : Int) | del (k : Int)

def Move.op : Move → Op Int Unit
  | .put k => .put k ()
  | .del k => .remove k

/-- The tree and the next address. -/
abbrev Bare := T Int (Nat × Unit) × Nat

/-- What a call does to the tree. -/
def bareStep (b : Bare) : Move → Option Bare
  | .put k =>
    if b.1.isNil then some (node 1 k (b.2, ()) nil nil, b.2 + 1)
    else (put fastLimit Compare.any k (b.2, ()) id b.1).map fun p =>
      (p.1, match get Compare.any k b.1 with | none => b.2 + 1 | some _ => b.2)
  | .del k =>
    match get Compare.any k b.1 with
    | none => some b
    | some e => (cutAt e.2.1 b.1).map fun p => (p.1, b.2)

/-- A call that succeeds does that to the tree of the list. -/
theorem step_bare {s s' : TL Int Unit} {m : Move} {r : Res Int Unit}
    (h : step Compare.any s m.op = some (s', r)) : bareStep (s.tree, s.free) m = some (s'.tree, s'.free) := by
  have hR : ∀ (s : TL Int Unit) p q, (s.setR p q).tree = s.tree ∧ (s.setR p q).free = s.free := by
    intro s p q; cases p <;> exact ⟨rfl, rfl⟩
  have hL : ∀ (s : TL Int Unit) p q, (s.setL p q).tree = s.tree ∧ (s.setL p q).free = s.free := by
    intro s p q; cases p <;> exact ⟨rfl, rfl⟩
  cases m with
  | put k =>
    simp only [Move.op, step, putWith, fastLimit_eq] at h
    simp only [bareStep]
    have hid : (fun e : Ent Int Unit => (e.1, (e.2.1, id e.2.2))) = id := rfl
    rw [hid] at h
    by_cases hn : s.tree.isNil = true
    · rw [if_pos hn] at h ⊢
      cases h
      rfl
    · rw [if_neg hn] at h ⊢
      cases hp : put fastLimit Compare.any k (s.free, ()) id s.tree with
      | none => simp [hp] at h
      | some p =>
        cases hg : get Compare.any k s.tree with
        | none =>
          simp only [hp, hg, Option.map_some, Option.some.injEq, Prod.mk.injEq] at h
          rw [← h.1]
          simp [hR, hL]
        | some e =>
          simp only [hp, hg, Option.map_some, Option.some.injEq, Prod.mk.injEq] at h
          rw [← h.1]
          simp
  | del k =>
    simp only [Move.op, step, doRemove] at h
    simp only [bareStep]
    cases hg : get Compare.any k s.tree with
    | none =>
      simp only [hg, Option.map_some, Option.some.injEq, Prod.mk.injEq] at h
      rw [← h.1]
    | some e =>
      simp only [hg, Option.map_map, Option.map_eq_some_iff] at h
      obtain ⟨p, hp, h⟩ := h
      simp only [Function.comp, Prod.mk.injEq] at h
      obtain ⟨rfl, -⟩ := h
      unfold removeNode at hp
      cases hc : cutAt e.2.1 s.tree with
      | none => simp [hc] at hp
      | some q =>
        obtain ⟨t, c⟩ := q
        cases c with
        | leaf =>
          simp only [hc] at hp
          split at hp
          · cases hp; simp [hc]
          · cases hp
            simp [hc, TL.unlink, hR, hL]
        | prev x =>
          simp only [hc, Option.map_eq_some_iff] at hp
          obtain ⟨a, -, rfl⟩ := hp
          simp [hc, hR]
        | next x =>
          simp only [hc, Option.map_eq_some_iff] at hp
          obtain ⟨a, -, rfl⟩ := hp
          simp [hc, hL]

def bareRun : Bare → List Move → Option Bare
  | b, [] => some b
  | b, m :: ms => (bareStep b m).bind fun b' => bareRun b' ms

theorem run_bare (ms : List Move) : ∀ (s : TL Int Unit), bareRun (s.tree, s.free) ms = none →
    run (step Compare.any) s (ms.map Move.op) = none := by
  induction ms with
  | nil => intro s h; cases h
  | cons m ms ih =>
    intro s h
    simp only [List.map_cons, run]
    cases hs : step Compare.any s m.op with
    | none => rfl
    | some p =>
      obtain ⟨s', r⟩ := p
      simp only [bareRun, step_bare hs, Option.bind_some] at h
      simp only [ih s' h]

def puts0 : List Int := [0, 1, 2, 3, 4, 5, 6, 7, 8, 9, 10, 11, 12, 13, 14, 15, 16, 17, 18, 19, 20,
  21, 22, 23, 24, 25, 26, 27, 28, 29, 30, 31, 32, 33, 34, 35, 36, 37, 38, 39, 40, 41, 42, 43, 44,
  45, 834, 883]
def dels0 : List Int := [0, 2, 1, 4, 6, 5, 3, 8, 10, 9, 12, 14, 13, 11, 7, 16, 18, 17, 20, 22, 21,
  19, 24, 26, 25, 28, 30, 29, 27, 23, 15, 32, 34, 33, 36, 38, 37, 35, 40, 42, 41, 44]
def puts1 : List Int := [884, 885, 886, 887, 888, 889, 890, 891, 892, 893, 894, 895, 896, 897, 898,
  899, 900, 901, 902, 903, 904, 905, 906, 907, 908, 909, 910, 911, 912, 913, 914, 915, 916, 917,
  918, 919, 920, 921, 922, 923, 924, 925, 926, 927, 928, 929, 930, 931]
def dels1 : List Int := [884, 886, 885, 888, 890, 889, 892, 894, 893, 891, 896, 898, 897, 900, 902,
  901, 899, 895, 904, 906, 905, 908, 910, 909, 907, 912, 914, 913, 916, 918, 917, 915, 911, 920,
  922, 921, 924, 926, 925, 923, 928, 931, 930, 929, 927, 919]
def puts2 : List Int := [835, 836, 837, 838, 839, 840, 841, 842, 843, 844, 845, 846, 847, 848, 849,
  850, 851, 852, 853, 854, 855, 856, 857, 858, 859, 860, 861, 862, 863, 864, 865, 866, 867, 868,
  869, 870, 871, 872, 873, 874, 875, 876, 877, 878, 879, 880, 881, 882]
def dels2 : List Int := [835, 837, 838, 840, 842, 841, 839, 844, 846, 845, 848, 850, 849, 847, 852,
  854, 853, 856, 858, 857, 855, 851, 860, 862, 861, 864, 866, 865, 863, 868, 870, 869, 872, 874,
  873, 871, 867, 876, 878, 877, 880, 882, 883, 881, 879, 875]
def puts3 : List Int := [46, 47, 48, 49, 50, 51, 52, 53, 54, 55, 56, 57, 58, 59, 60, 61, 62, 63, 64,
  65, 66, 67, 68, 69, 70, 71, 72, 73, 74, 75, 76, 77, 78, 79, 80, 81, 82, 83, 84, 85, 86, 87, 88,
  89, 90, 91, 92, 785]
def dels3 : List Int := [43, 45, 39, 47, 49, 48, 46, 51, 53, 52, 50, 31, 55, 57, 56, 59, 58, 61, 62,
  64, 65, 63, 67, 68, 70, 71, 69, 73, 74, 76, 77, 75, 79, 80, 82, 83, 81, 85, 86, 88, 89, 87, 91,
  836]
def puts4 : List Int := [786, 787, 788, 789, 790, 791, 792, 793, 794, 795, 796, 797, 798, 799, 800,
  801, 802, 803, 804, 805, 806, 807, 808, 809, 810, 811, 812, 813, 814, 815, 816, 817, 818, 819,
  820, 821, 822, 823, 824, 825, 826, 827, 828, 829, 830, 831, 832, 833]
def dels4 : List Int := [787, 789, 788, 791, 793, 792, 795, 797, 796, 794, 799, 801, 800, 803, 805,
  804, 802, 798, 807, 809, 808, 811, 813, 812, 810, 815, 817, 816, 819, 821, 820, 818, 814, 823,
  825, 824, 827, 829, 828, 826, 831, 833, 834, 832, 830, 822]
def puts5 : List Int := [93, 94, 95, 96, 97, 98, 99, 100, 101, 102, 103, 104, 105, 106, 107, 108,
  109, 110, 111, 112, 113, 114, 115, 116, 117, 118, 119, 120, 121, 122, 123, 124, 125, 126, 127,
  128, 129, 130, 131, 132, 133, 134, 135, 136, 137, 138, 139, 736]
def dels5 : List Int := [92, 90, 94, 93, 84, 78, 96, 97, 99, 100, 98, 102, 103, 105, 106, 104, 108,
  109, 111, 112, 110, 114, 115, 117, 118, 116, 120, 121, 123, 124, 122, 126, 127, 129, 130, 128,
  132, 133, 135, 136, 134, 138, 786]
def puts6 : List Int := [737, 738, 739, 740, 741, 742, 743, 744, 745, 746, 747, 748, 749, 750, 751,
  752, 753, 754, 755, 756, 757, 758, 759, 760, 761, 762, 763, 764, 765, 766, 767, 768, 769, 770,
  771, 772, 773, 774, 775, 776, 777, 778, 779, 780, 781, 782, 783, 784]
def dels6 : List Int := [738, 740, 739, 742, 744, 743, 746, 748, 747, 745, 750, 752, 751, 754, 756,
  755, 753, 749, 758, 760, 759, 762, 764, 763, 761, 766, 768, 767, 770, 772, 771, 769, 765, 774,
  776, 775, 778, 780, 779, 777, 782, 784, 785, 783, 781, 773]
def puts7 : List Int := [140, 141, 142, 143, 144, 145, 146, 147, 148, 149, 150, 151, 152, 153, 154,
  155, 156, 157, 158, 159, 160, 161, 162, 163, 164, 165, 166, 167, 168, 169, 170, 171, 172, 173,
  174, 175, 176, 177, 178, 179, 180, 181, 182, 183, 184, 185, 186, 687]
def dels7 : List Int := [139, 137, 141, 140, 131, 125, 143, 144, 146, 147, 145, 149, 150, 152, 153,
  151, 155, 156, 158, 159, 157, 161, 162, 164, 165, 163, 167, 168, 170, 171, 169, 173, 174, 176,
  177, 175, 179, 180, 182, 183, 181, 185, 737]
def puts8 : List Int := [688, 689, 690, 691, 692, 693, 694, 695, 696, 697, 698, 699, 700, 701, 702,
  703, 704, 705, 706, 707, 708, 709, 710, 711, 712, 713, 714, 715, 716, 717, 718, 719, 720, 721,
  722, 723, 724, 725, 726, 727, 728, 729, 730, 731, 732, 733, 734, 735]
def dels8 : List Int := [689, 691, 690, 693, 695, 694, 697, 699, 698, 696, 701, 703, 702, 705, 707,
  706, 704, 700, 709, 711, 710, 713, 715, 714, 712, 717, 719, 718, 721, 723, 722, 720, 716, 725,
  727, 726, 729, 731, 730, 728, 733, 735, 736, 734, 732, 724]
def puts9 : List Int := [187, 188, 189, 190, 191, 192, 193, 194, 195, 196, 197, 198, 199, 200, 201,
  202, 203, 204, 205, 206, 207, 208, 209, 210, 211, 212, 213, 214, 215, 216, 217, 218, 219, 220,
  221, 222, 223, 224, 225, 226, 227, 228, 229, 230, 231, 232, 233, 638]
def dels9 : List Int := [186, 184, 188, 187, 178, 172, 190, 191, 193, 194, 192, 196, 197, 199, 200,
  198, 202, 203, 205, 206, 204, 208, 209, 211, 212, 210, 214, 215, 217, 218, 216, 220, 221, 223,
  224, 222, 226, 227, 229, 230, 228, 232, 688]
def puts10 : List Int := [639, 640, 641, 642, 643, 644, 645, 646, 647, 648, 649, 650, 651, 652, 653,
  654, 655, 656, 657, 658, 659, 660, 661, 662, 663, 664, 665, 666, 667, 668, 669, 670, 671, 672,
  673, 674, 675, 676, 677, 678, 679, 680, 681, 682, 683, 684, 685, 686]
def dels10 : List Int := [640, 642, 641, 644, 646, 645, 648, 650, 649, 647, 652, 654, 653, 656, 658,
  657, 655, 651, 660, 662, 661, 664, 666, 665, 663, 668, 670, 669, 672, 674, 673, 671, 667, 676,
  678, 677, 680, 682, 681, 679, 684, 686, 687, 685, 683, 675]
def puts11 : List Int := [234, 235, 236, 237, 238, 239, 240, 241, 242, 243, 244, 245, 246, 247, 248,
  249, 250, 251, 252, 253, 254, 255, 256, 257, 258, 259, 260, 261, 262, 263, 264, 265, 266, 267,
  268, 269, 270, 271, 272, 273, 274, 275, 276, 277, 278, 279, 280, 589]
def dels11 : List Int := [233, 231, 235, 234, 225, 219, 237, 238, 240, 241, 239, 243, 244, 246, 247,
  245, 249, 250, 252, 253, 251, 255, 256, 258, 259, 257, 261, 262, 264, 265, 263, 267, 268, 270,
  271, 269, 273, 274, 276, 277, 275, 279, 639]
def puts12 : List Int := [590, 591, 592, 593, 594, 595, 596, 597, 598, 599, 600, 601, 602, 603, 604,
  605, 606, 607, 608, 609, 610, 611, 612, 613, 614, 615, 616, 617, 618, 619, 620, 621, 622, 623,
  624, 625, 626, 627, 628, 629, 630, 631, 632, 633, 634, 635, 636, 637]
def dels12 : List Int := [591, 593, 592, 595, 597, 596, 599, 601, 600, 598, 603, 605, 604, 607, 609,
  608, 606, 602, 611, 613, 612, 615, 617, 616, 614, 619, 621, 620, 623, 625, 624, 622, 618, 627,
  629, 628, 631, 633, 632, 630, 635, 637, 638, 636, 634, 626]
def puts13 : List Int := [281, 282, 283, 284, 285, 286, 287, 288, 289, 290, 291, 292, 293, 294, 295,
  296, 297, 298, 299, 300, 301, 302, 303, 304, 305, 306, 307, 308, 309, 310, 311, 312, 313, 314,
  315, 316, 317, 318, 319, 320, 321, 322, 323, 324, 325, 326, 327, 540]
def dels13 : List Int := [280, 278, 282, 281, 272, 266, 284, 285, 287, 288, 286, 290, 291, 293, 294,
  292, 296, 297, 299, 300, 298, 302, 303, 305, 306, 304, 308, 309, 311, 312, 310, 314, 315, 317,
  318, 316, 320, 321, 323, 324, 322, 326, 590]
def puts14 : List Int := [541, 542, 543, 544, 545, 546, 547, 548, 549, 550, 551, 552, 553, 554, 555,
  556, 557, 558, 559, 560, 561, 562, 563, 564, 565, 566, 567, 568, 569, 570, 571, 572, 573, 574,
  575, 576, 577, 578, 579, 580, 581, 582, 583, 584, 585, 586, 587, 588]
def dels14 : List Int := [542, 544, 543, 546, 548, 547, 550, 552, 551, 549, 554, 556, 555, 558, 560,
  559, 557, 553, 562, 564, 563, 566, 568, 567, 565, 570, 572, 571, 574, 576, 575, 573, 569, 578,
  580, 579, 582, 584, 583, 581, 586, 588, 589, 587, 585, 577]
def puts15 : List Int := [328, 329, 330, 331, 332, 333, 334, 335, 336, 337, 338, 339, 340, 341, 342,
  343, 344, 345, 346, 347, 348, 349, 350, 351, 352, 353, 354, 355, 356, 357, 358, 359, 360, 361,
  362, 363, 364, 365, 366, 367, 368, 369, 370, 371, 372, 373, 374, 491]
def dels15 : List Int := [327, 325, 329, 328, 319, 313, 331, 332, 334, 335, 333, 337, 338, 340, 341,
  339, 343, 344, 346, 347, 345, 349, 350, 352, 353, 351, 355, 356, 358, 359, 357, 361, 362, 364,
  365, 363, 367, 368, 370, 371, 369, 373, 541]
def puts16 : List Int := [492, 493, 494, 495, 496, 497, 498, 499, 500, 501, 502, 503, 504, 505, 506,
  507, 508, 509, 510, 511, 512, 513, 514, 515, 516, 517, 518, 519, 520, 521, 522, 523, 524, 525,
  526, 527, 528, 529, 530, 531, 532, 533, 534, 535, 536, 537, 538, 539]
def dels16 : List Int := [493, 495, 494, 497, 499, 498, 501, 503, 502, 500, 505, 507, 506, 509, 511,
  510, 508, 504, 513, 515, 514, 517, 519, 518, 516, 521, 523, 522, 525, 527, 526, 524, 520, 529,
  531, 530, 533, 535, 534, 532, 537, 539, 540, 538, 536, 528]
def puts17 : List Int := [375, 376, 377, 378, 379, 380, 381, 382, 383, 384, 385, 386, 387, 388, 389,
  390, 391, 392, 393, 394, 395, 396, 397, 398, 399, 400, 401, 402, 403, 404, 405, 406, 407, 408,
  409, 410, 411, 412, 413, 414, 415, 416, 417, 418, 419, 420, 421, 442]
def dels17 : List Int := [374, 372, 376, 375, 366, 360, 378, 379, 381, 382, 380, 384, 385, 387, 388,
  386, 390, 391, 393, 394, 392, 396, 397, 399, 400, 398, 402, 403, 405, 406, 404, 408, 409, 411,
  412, 410, 414, 415, 417, 418, 416, 420, 492]
def puts18 : List Int := [443, 444, 445, 446, 447, 448, 449, 450, 451, 452, 453, 454, 455, 456, 457,
  458, 459, 460, 461, 462, 463, 464, 465, 466, 467, 468, 469, 470, 471, 472, 473, 474, 475, 476,
  477, 478, 479, 480, 481, 482, 483, 484, 485, 486, 487, 488, 489, 490]
def dels18 : List Int := [444, 446, 445, 448, 450, 449, 452, 454, 453, 451, 456, 458, 457, 460, 462,
  461, 459, 455, 464, 466, 465, 468, 470, 469, 467, 472, 474, 473, 476, 478, 477, 475, 471, 480,
  482, 481, 484, 486, 485, 483, 488, 490, 491, 489, 487, 479]
def puts19 : List Int := [422, 423, 424, 425, 426, 427, 428, 429, 430, 431, 432, 433, 434, 435, 436,
  437, 438, 439, 440, 441]
def dels19 : List Int := []

def deep : List Move :=
  puts0.map .put ++ dels0.map .del ++
  puts1.map .put ++ dels1.map .del ++
  puts2.map .put ++ dels2.map .del ++
  puts3.map .put ++ dels3.map .del ++
  puts4.map .put ++ dels4.map .del ++
  puts5.map .put ++ dels5.map .del ++
  puts6.map .put ++ dels6.map .del ++
  puts7.map .put ++ dels7.map .del ++
  puts8.map .put ++ dels8.map .del ++
  puts9.map .put ++ dels9.map .del ++
  puts10.map .put ++ dels10.map .del ++
  puts11.map .put ++ dels11.map .del ++
  puts12.map .put ++ dels12.map .del ++
  puts13.map .put ++ dels13.map .del ++
  puts14.map .put ++ dels14.map .del ++
  puts15.map .put ++ dels15.map .del ++
  puts16.map .put ++ dels16.map .del ++
  puts17.map .put ++ dels17.map .del ++
  puts18.map .put ++ dels18.map .del ++
  puts19.map .put ++ dels19.map .del

theorem bare_deep : bareRun (nil, 0) deep = none := by
  have h : (bareRun (nil, 0) deep).isNone = true := by decide +kernel
  simpa using h

theorem run_deep (junk : Int × Unit) : run (step Compare.any) (new junk) (deep.map Move.op) = none :=
  run_bare deep _ bare_deep

end Verif.TreeList
