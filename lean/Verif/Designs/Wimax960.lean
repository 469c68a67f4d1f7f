import Verif.Lemmas.RowSpan
-- Generated by tools/gen_designs.py from /repo/commpy/channelcoding/designs/ldpc/wimax/960.720.a.txt
namespace Verif

/-- The checks listed in the design file (designs/ldpc/wimax/960.720.a.txt:965-1204), columns counted from 0, sorted. Part 1. -/
def wimax960Checks1 : Checks := [
  [2, 55, 81, 158, 292, 349, 435, 495, 535, 561, 604, 699, 740, 760], [3, 56, 82, 159, 293, 350, 436, 496, 536, 562, 605, 700, 741, 761],
  [4, 57, 83, 120, 294, 351, 437, 497, 537, 563, 606, 701, 742, 762], [5, 58, 84, 121, 295, 352, 438, 498, 538, 564, 607, 702, 743, 763],
  [6, 59, 85, 122, 296, 353, 439, 499, 539, 565, 608, 703, 744, 764], [7, 60, 86, 123, 297, 354, 400, 500, 540, 566, 609, 704, 745, 765],
  [8, 61, 87, 124, 298, 355, 401, 501, 541, 567, 610, 705, 746, 766], [9, 62, 88, 125, 299, 356, 402, 502, 542, 568, 611, 706, 747, 767],
  [10, 63, 89, 126, 300, 357, 403, 503, 543, 569, 612, 707, 748, 768], [11, 64, 90, 127, 301, 358, 404, 504, 544, 570, 613, 708, 749, 769],
  [12, 65, 91, 128, 302, 359, 405, 505, 545, 571, 614, 709, 750, 770], [13, 66, 92, 129, 303, 320, 406, 506, 546, 572, 615, 710, 751, 771],
  [14, 67, 93, 130, 304, 321, 407, 507, 547, 573, 616, 711, 752, 772], [15, 68, 94, 131, 305, 322, 408, 508, 548, 574, 617, 712, 753, 773],
  [16, 69, 95, 132, 306, 323, 409, 509, 549, 575, 618, 713, 754, 774], [17, 70, 96, 133, 307, 324, 410, 510, 550, 576, 619, 714, 755, 775],
  [18, 71, 97, 134, 308, 325, 411, 511, 551, 577, 620, 715, 756, 776], [19, 72, 98, 135, 309, 326, 412, 512, 552, 578, 621, 716, 757, 777],
  [20, 73, 99, 136, 310, 327, 413, 513, 553, 579, 622, 717, 758, 778], [21, 74, 100, 137, 311, 328, 414, 514, 554, 580, 623, 718, 759, 779],
  [22, 75, 101, 138, 312, 329, 415, 515, 555, 581, 624, 719, 720, 780], [23, 76, 102, 139, 313, 330, 416, 516, 556, 582, 625, 680, 721, 781],
  [24, 77, 103, 140, 314, 331, 417, 517, 557, 583, 626, 681, 722, 782], [25, 78, 104, 141, 315, 332, 418, 518, 558, 584, 627, 682, 723, 783],
  [26, 79, 105, 142, 316, 333, 419, 519, 559, 585, 628, 683, 724, 784], [27, 40, 106, 143, 317, 334, 420, 480, 520, 586, 629, 684, 725, 785],
  [28, 41, 107, 144, 318, 335, 421, 481, 521, 587, 630, 685, 726, 786], [29, 42, 108, 145, 319, 336, 422, 482, 522, 588, 631, 686, 727, 787],
  [30, 43, 109, 146, 280, 337, 423, 483, 523, 589, 632, 687, 728, 788], [31, 44, 110, 147, 281, 338, 424, 484, 524, 590, 633, 688, 729, 789],
  [32, 45, 111, 148, 282, 339, 425, 485, 525, 591, 634, 689, 730, 790], [33, 46, 112, 149, 283, 340, 426, 486, 526, 592, 635, 690, 731, 791],
  [34, 47, 113, 150, 284, 341, 427, 487, 527, 593, 636, 691, 732, 792], [35, 48, 114, 151, 285, 342, 428, 488, 528, 594, 637, 692, 733, 793],
  [36, 49, 115, 152, 286, 343, 429, 489, 529, 595, 638, 693, 734, 794], [37, 50, 116, 153, 287, 344, 430, 490, 530, 596, 639, 694, 735, 795],
  [38, 51, 117, 154, 288, 345, 431, 491, 531, 597, 600, 695, 736, 796], [39, 52, 118, 155, 289, 346, 432, 492, 532, 598, 601, 696, 737, 797],
  [0, 53, 119, 156, 290, 347, 433, 493, 533, 599, 602, 697, 738, 798], [1, 54, 80, 157, 291, 348, 434, 494, 534, 560, 603, 698, 739, 799],
  [25, 79, 87, 155, 238, 272, 326, 478, 538, 570, 613, 652, 760, 800], [26, 40, 88, 156, 239, 273, 327, 479, 539, 571, 614, 653, 761, 801],
  [27, 41, 89, 157, 200, 274, 328, 440, 540, 572, 615, 654, 762, 802], [28, 42, 90, 158, 201, 275, 329, 441, 541, 573, 616, 655, 763, 803],
  [29, 43, 91, 159, 202, 276, 330, 442, 542, 574, 617, 656, 764, 804], [30, 44, 92, 120, 203, 277, 331, 443, 543, 575, 618, 657, 765, 805],
  [31, 45, 93, 121, 204, 278, 332, 444, 544, 576, 619, 658, 766, 806], [32, 46, 94, 122, 205, 279, 333, 445, 545, 577, 620, 659, 767, 807],
  [33, 47, 95, 123, 206, 240, 334, 446, 546, 578, 621, 660, 768, 808], [34, 48, 96, 124, 207, 241, 335, 447, 547, 579, 622, 661, 769, 809],
  [35, 49, 97, 125, 208, 242, 336, 448, 548, 580, 623, 662, 770, 810], [36, 50, 98, 126, 209, 243, 337, 449, 549, 581, 624, 663, 771, 811],
  [37, 51, 99, 127, 210, 244, 338, 450, 550, 582, 625, 664, 772, 812], [38, 52, 100, 128, 211, 245, 339, 451, 551, 583, 626, 665, 773, 813],
  [39, 53, 101, 129, 212, 246, 340, 452, 552, 584, 627, 666, 774, 814], [0, 54, 102, 130, 213, 247, 341, 453, 553, 585, 628, 667, 775, 815],
  [1, 55, 103, 131, 214, 248, 342, 454, 554, 586, 629, 668, 776, 816], [2, 56, 104, 132, 215, 249, 343, 455, 555, 587, 630, 669, 777, 817],
  [3, 57, 105, 133, 216, 250, 344, 456, 556, 588, 631, 670, 778, 818], [4, 58, 106, 134, 217, 251, 345, 457, 557, 589, 632, 671, 779, 819]]

/-- The checks listed in the design file (designs/ldpc/wimax/960.720.a.txt:965-1204), columns counted from 0, sorted. Part 2. -/
def wimax960Checks2 : Checks := [
  [5, 59, 107, 135, 218, 252, 346, 458, 558, 590, 633, 672, 780, 820], [6, 60, 108, 136, 219, 253, 347, 459, 559, 591, 634, 673, 781, 821],
  [7, 61, 109, 137, 220, 254, 348, 460, 520, 592, 635, 674, 782, 822], [8, 62, 110, 138, 221, 255, 349, 461, 521, 593, 636, 675, 783, 823],
  [9, 63, 111, 139, 222, 256, 350, 462, 522, 594, 637, 676, 784, 824], [10, 64, 112, 140, 223, 257, 351, 463, 523, 595, 638, 677, 785, 825],
  [11, 65, 113, 141, 224, 258, 352, 464, 524, 596, 639, 678, 786, 826], [12, 66, 114, 142, 225, 259, 353, 465, 525, 597, 600, 679, 787, 827],
  [13, 67, 115, 143, 226, 260, 354, 466, 526, 598, 601, 640, 788, 828], [14, 68, 116, 144, 227, 261, 355, 467, 527, 599, 602, 641, 789, 829],
  [15, 69, 117, 145, 228, 262, 356, 468, 528, 560, 603, 642, 790, 830], [16, 70, 118, 146, 229, 263, 357, 469, 529, 561, 604, 643, 791, 831],
  [17, 71, 119, 147, 230, 264, 358, 470, 530, 562, 605, 644, 792, 832], [18, 72, 80, 148, 231, 265, 359, 471, 531, 563, 606, 645, 793, 833],
  [19, 73, 81, 149, 232, 266, 320, 472, 532, 564, 607, 646, 794, 834], [20, 74, 82, 150, 233, 267, 321, 473, 533, 565, 608, 647, 795, 835],
  [21, 75, 83, 151, 234, 268, 322, 474, 534, 566, 609, 648, 796, 836], [22, 76, 84, 152, 235, 269, 323, 475, 535, 567, 610, 649, 797, 837],
  [23, 77, 85, 153, 236, 270, 324, 476, 536, 568, 611, 650, 798, 838], [24, 78, 86, 154, 237, 271, 325, 477, 537, 569, 612, 651, 799, 839],
  [29, 102, 165, 227, 258, 312, 392, 484, 569, 622, 669, 714, 800, 840], [30, 103, 166, 228, 259, 313, 393, 485, 570, 623, 670, 715, 801, 841],
  [31, 104, 167, 229, 260, 314, 394, 486, 571, 624, 671, 716, 802, 842], [32, 105, 168, 230, 261, 315, 395, 487, 572, 625, 672, 717, 803, 843],
  [33, 106, 169, 231, 262, 316, 396, 488, 573, 626, 673, 718, 804, 844], [34, 107, 170, 232, 263, 317, 397, 489, 574, 627, 674, 719, 805, 845],
  [35, 108, 171, 233, 264, 318, 398, 490, 575, 628, 675, 680, 806, 846], [36, 109, 172, 234, 265, 319, 399, 491, 576, 629, 676, 681, 807, 847],
  [37, 110, 173, 235, 266, 280, 360, 492, 577, 630, 677, 682, 808, 848], [38, 111, 174, 236, 267, 281, 361, 493, 578, 631, 678, 683, 809, 849],
  [39, 112, 175, 237, 268, 282, 362, 494, 579, 632, 679, 684, 810, 850], [0, 113, 176, 238, 269, 283, 363, 495, 580, 633, 640, 685, 811, 851],
  [1, 114, 177, 239, 270, 284, 364, 496, 581, 634, 641, 686, 812, 852], [2, 115, 178, 200, 271, 285, 365, 497, 582, 635, 642, 687, 813, 853],
  [3, 116, 179, 201, 272, 286, 366, 498, 583, 636, 643, 688, 814, 854], [4, 117, 180, 202, 273, 287, 367, 499, 584, 637, 644, 689, 815, 855],
  [5, 118, 181, 203, 274, 288, 368, 500, 585, 638, 645, 690, 816, 856], [6, 119, 182, 204, 275, 289, 369, 501, 586, 639, 646, 691, 817, 857],
  [7, 80, 183, 205, 276, 290, 370, 502, 587, 600, 647, 692, 818, 858], [8, 81, 184, 206, 277, 291, 371, 503, 588, 601, 648, 693, 819, 859],
  [9, 82, 185, 207, 278, 292, 372, 504, 589, 602, 649, 694, 820, 860], [10, 83, 186, 208, 279, 293, 373, 505, 590, 603, 650, 695, 821, 861],
  [11, 84, 187, 209, 240, 294, 374, 506, 591, 604, 651, 696, 822, 862], [12, 85, 188, 210, 241, 295, 375, 507, 592, 605, 652, 697, 823, 863],
  [13, 86, 189, 211, 242, 296, 376, 508, 593, 606, 653, 698, 824, 864], [14, 87, 190, 212, 243, 297, 377, 509, 594, 607, 654, 699, 825, 865],
  [15, 88, 191, 213, 244, 298, 378, 510, 595, 608, 655, 700, 826, 866], [16, 89, 192, 214, 245, 299, 379, 511, 596, 609, 656, 701, 827, 867],
  [17, 90, 193, 215, 246, 300, 380, 512, 597, 610, 657, 702, 828, 868], [18, 91, 194, 216, 247, 301, 381, 513, 598, 611, 658, 703, 829, 869],
  [19, 92, 195, 217, 248, 302, 382, 514, 599, 612, 659, 704, 830, 870], [20, 93, 196, 218, 249, 303, 383, 515, 560, 613, 660, 705, 831, 871],
  [21, 94, 197, 219, 250, 304, 384, 516, 561, 614, 661, 706, 832, 872], [22, 95, 198, 220, 251, 305, 385, 517, 562, 615, 662, 707, 833, 873],
  [23, 96, 199, 221, 252, 306, 386, 518, 563, 616, 663, 708, 834, 874], [24, 97, 160, 222, 253, 307, 387, 519, 564, 617, 664, 709, 835, 875],
  [25, 98, 161, 223, 254, 308, 388, 480, 565, 618, 665, 710, 836, 876], [26, 99, 162, 224, 255, 309, 389, 481, 566, 619, 666, 711, 837, 877],
  [27, 100, 163, 225, 256, 310, 390, 482, 567, 620, 667, 712, 838, 878], [28, 101, 164, 226, 257, 311, 391, 483, 568, 621, 668, 713, 839, 879]]

/-- The checks listed in the design file (designs/ldpc/wimax/960.720.a.txt:965-1204), columns counted from 0, sorted. Part 3. -/
def wimax960Checks3 : Checks := [
  [15, 65, 147, 163, 230, 259, 306, 376, 425, 457, 679, 693, 720, 840, 880], [16, 66, 148, 164, 231, 260, 307, 377, 426, 458, 640, 694, 721, 841, 881],
  [17, 67, 149, 165, 232, 261, 308, 378, 427, 459, 641, 695, 722, 842, 882], [18, 68, 150, 166, 233, 262, 309, 379, 428, 460, 642, 696, 723, 843, 883],
  [19, 69, 151, 167, 234, 263, 310, 380, 429, 461, 643, 697, 724, 844, 884], [20, 70, 152, 168, 235, 264, 311, 381, 430, 462, 644, 698, 725, 845, 885],
  [21, 71, 153, 169, 236, 265, 312, 382, 431, 463, 645, 699, 726, 846, 886], [22, 72, 154, 170, 237, 266, 313, 383, 432, 464, 646, 700, 727, 847, 887],
  [23, 73, 155, 171, 238, 267, 314, 384, 433, 465, 647, 701, 728, 848, 888], [24, 74, 156, 172, 239, 268, 315, 385, 434, 466, 648, 702, 729, 849, 889],
  [25, 75, 157, 173, 200, 269, 316, 386, 435, 467, 649, 703, 730, 850, 890], [26, 76, 158, 174, 201, 270, 317, 387, 436, 468, 650, 704, 731, 851, 891],
  [27, 77, 159, 175, 202, 271, 318, 388, 437, 469, 651, 705, 732, 852, 892], [28, 78, 120, 176, 203, 272, 319, 389, 438, 470, 652, 706, 733, 853, 893],
  [29, 79, 121, 177, 204, 273, 280, 390, 439, 471, 653, 707, 734, 854, 894], [30, 40, 122, 178, 205, 274, 281, 391, 400, 472, 654, 708, 735, 855, 895],
  [31, 41, 123, 179, 206, 275, 282, 392, 401, 473, 655, 709, 736, 856, 896], [32, 42, 124, 180, 207, 276, 283, 393, 402, 474, 656, 710, 737, 857, 897],
  [33, 43, 125, 181, 208, 277, 284, 394, 403, 475, 657, 711, 738, 858, 898], [34, 44, 126, 182, 209, 278, 285, 395, 404, 476, 658, 712, 739, 859, 899],
  [35, 45, 127, 183, 210, 279, 286, 396, 405, 477, 659, 713, 740, 860, 900], [36, 46, 128, 184, 211, 240, 287, 397, 406, 478, 660, 714, 741, 861, 901],
  [37, 47, 129, 185, 212, 241, 288, 398, 407, 479, 661, 715, 742, 862, 902], [38, 48, 130, 186, 213, 242, 289, 399, 408, 440, 662, 716, 743, 863, 903],
  [39, 49, 131, 187, 214, 243, 290, 360, 409, 441, 663, 717, 744, 864, 904], [0, 50, 132, 188, 215, 244, 291, 361, 410, 442, 664, 718, 745, 865, 905],
  [1, 51, 133, 189, 216, 245, 292, 362, 411, 443, 665, 719, 746, 866, 906], [2, 52, 134, 190, 217, 246, 293, 363, 412, 444, 666, 680, 747, 867, 907],
  [3, 53, 135, 191, 218, 247, 294, 364, 413, 445, 667, 681, 748, 868, 908], [4, 54, 136, 192, 219, 248, 295, 365, 414, 446, 668, 682, 749, 869, 909],
  [5, 55, 137, 193, 220, 249, 296, 366, 415, 447, 669, 683, 750, 870, 910], [6, 56, 138, 194, 221, 250, 297, 367, 416, 448, 670, 684, 751, 871, 911],
  [7, 57, 139, 195, 222, 251, 298, 368, 417, 449, 671, 685, 752, 872, 912], [8, 58, 140, 196, 223, 252, 299, 369, 418, 450, 672, 686, 753, 873, 913],
  [9, 59, 141, 197, 224, 253, 300, 370, 419, 451, 673, 687, 754, 874, 914], [10, 60, 142, 198, 225, 254, 301, 371, 420, 452, 674, 688, 755, 875, 915],
  [11, 61, 143, 199, 226, 255, 302, 372, 421, 453, 675, 689, 756, 876, 916], [12, 62, 144, 160, 227, 256, 303, 373, 422, 454, 676, 690, 757, 877, 917],
  [13, 63, 145, 161, 228, 257, 304, 374, 423, 455, 677, 691, 758, 878, 918], [14, 64, 146, 162, 229, 258, 305, 375, 424, 456, 678, 692, 759, 879, 919],
  [173, 221, 262, 313, 359, 369, 402, 461, 490, 557, 578, 608, 880, 920], [174, 222, 263, 314, 320, 370, 403, 462, 491, 558, 579, 609, 881, 921],
  [175, 223, 264, 315, 321, 371, 404, 463, 492, 559, 580, 610, 882, 922], [176, 224, 265, 316, 322, 372, 405, 464, 493, 520, 581, 611, 883, 923],
  [177, 225, 266, 317, 323, 373, 406, 465, 494, 521, 582, 612, 884, 924], [178, 226, 267, 318, 324, 374, 407, 466, 495, 522, 583, 613, 885, 925],
  [179, 227, 268, 319, 325, 375, 408, 467, 496, 523, 584, 614, 886, 926], [180, 228, 269, 280, 326, 376, 409, 468, 497, 524, 585, 615, 887, 927],
  [181, 229, 270, 281, 327, 377, 410, 469, 498, 525, 586, 616, 888, 928], [182, 230, 271, 282, 328, 378, 411, 470, 499, 526, 587, 617, 889, 929],
  [183, 231, 272, 283, 329, 379, 412, 471, 500, 527, 588, 618, 890, 930], [184, 232, 273, 284, 330, 380, 413, 472, 501, 528, 589, 619, 891, 931],
  [185, 233, 274, 285, 331, 381, 414, 473, 502, 529, 590, 620, 892, 932], [186, 234, 275, 286, 332, 382, 415, 474, 503, 530, 591, 621, 893, 933],
  [187, 235, 276, 287, 333, 383, 416, 475, 504, 531, 592, 622, 894, 934], [188, 236, 277, 288, 334, 384, 417, 476, 505, 532, 593, 623, 895, 935],
  [189, 237, 278, 289, 335, 385, 418, 477, 506, 533, 594, 624, 896, 936], [190, 238, 279, 290, 336, 386, 419, 478, 507, 534, 595, 625, 897, 937],
  [191, 239, 240, 291, 337, 387, 420, 479, 508, 535, 596, 626, 898, 938], [192, 200, 241, 292, 338, 388, 421, 440, 509, 536, 597, 627, 899, 939]]

/-- The checks listed in the design file (designs/ldpc/wimax/960.720.a.txt:965-1204), columns counted from 0, sorted. Part 4. -/
def wimax960Checks4 : Checks := [
  [193, 201, 242, 293, 339, 389, 422, 441, 510, 537, 598, 628, 900, 940], [194, 202, 243, 294, 340, 390, 423, 442, 511, 538, 599, 629, 901, 941],
  [195, 203, 244, 295, 341, 391, 424, 443, 512, 539, 560, 630, 902, 942], [196, 204, 245, 296, 342, 392, 425, 444, 513, 540, 561, 631, 903, 943],
  [197, 205, 246, 297, 343, 393, 426, 445, 514, 541, 562, 632, 904, 944], [198, 206, 247, 298, 344, 394, 427, 446, 515, 542, 563, 633, 905, 945],
  [199, 207, 248, 299, 345, 395, 428, 447, 516, 543, 564, 634, 906, 946], [160, 208, 249, 300, 346, 396, 429, 448, 517, 544, 565, 635, 907, 947],
  [161, 209, 250, 301, 347, 397, 430, 449, 518, 545, 566, 636, 908, 948], [162, 210, 251, 302, 348, 398, 431, 450, 519, 546, 567, 637, 909, 949],
  [163, 211, 252, 303, 349, 399, 432, 451, 480, 547, 568, 638, 910, 950], [164, 212, 253, 304, 350, 360, 433, 452, 481, 548, 569, 639, 911, 951],
  [165, 213, 254, 305, 351, 361, 434, 453, 482, 549, 570, 600, 912, 952], [166, 214, 255, 306, 352, 362, 435, 454, 483, 550, 571, 601, 913, 953],
  [167, 215, 256, 307, 353, 363, 436, 455, 484, 551, 572, 602, 914, 954], [168, 216, 257, 308, 354, 364, 437, 456, 485, 552, 573, 603, 915, 955],
  [169, 217, 258, 309, 355, 365, 438, 457, 486, 553, 574, 604, 916, 956], [170, 218, 259, 310, 356, 366, 439, 458, 487, 554, 575, 605, 917, 957],
  [171, 219, 260, 311, 357, 367, 400, 459, 488, 555, 576, 606, 918, 958], [172, 220, 261, 312, 358, 368, 401, 460, 489, 556, 577, 607, 919, 959],
  [66, 92, 156, 168, 322, 376, 423, 446, 509, 542, 651, 690, 740, 920], [67, 93, 157, 169, 323, 377, 424, 447, 510, 543, 652, 691, 741, 921],
  [68, 94, 158, 170, 324, 378, 425, 448, 511, 544, 653, 692, 742, 922], [69, 95, 159, 171, 325, 379, 426, 449, 512, 545, 654, 693, 743, 923],
  [70, 96, 120, 172, 326, 380, 427, 450, 513, 546, 655, 694, 744, 924], [71, 97, 121, 173, 327, 381, 428, 451, 514, 547, 656, 695, 745, 925],
  [72, 98, 122, 174, 328, 382, 429, 452, 515, 548, 657, 696, 746, 926], [73, 99, 123, 175, 329, 383, 430, 453, 516, 549, 658, 697, 747, 927],
  [74, 100, 124, 176, 330, 384, 431, 454, 517, 550, 659, 698, 748, 928], [75, 101, 125, 177, 331, 385, 432, 455, 518, 551, 660, 699, 749, 929],
  [76, 102, 126, 178, 332, 386, 433, 456, 519, 552, 661, 700, 750, 930], [77, 103, 127, 179, 333, 387, 434, 457, 480, 553, 662, 701, 751, 931],
  [78, 104, 128, 180, 334, 388, 435, 458, 481, 554, 663, 702, 752, 932], [79, 105, 129, 181, 335, 389, 436, 459, 482, 555, 664, 703, 753, 933],
  [40, 106, 130, 182, 336, 390, 437, 460, 483, 556, 665, 704, 754, 934], [41, 107, 131, 183, 337, 391, 438, 461, 484, 557, 666, 705, 755, 935],
  [42, 108, 132, 184, 338, 392, 439, 462, 485, 558, 667, 706, 756, 936], [43, 109, 133, 185, 339, 393, 400, 463, 486, 559, 668, 707, 757, 937],
  [44, 110, 134, 186, 340, 394, 401, 464, 487, 520, 669, 708, 758, 938], [45, 111, 135, 187, 341, 395, 402, 465, 488, 521, 670, 709, 759, 939],
  [46, 112, 136, 188, 342, 396, 403, 466, 489, 522, 671, 710, 720, 940], [47, 113, 137, 189, 343, 397, 404, 467, 490, 523, 672, 711, 721, 941],
  [48, 114, 138, 190, 344, 398, 405, 468, 491, 524, 673, 712, 722, 942], [49, 115, 139, 191, 345, 399, 406, 469, 492, 525, 674, 713, 723, 943],
  [50, 116, 140, 192, 346, 360, 407, 470, 493, 526, 675, 714, 724, 944], [51, 117, 141, 193, 347, 361, 408, 471, 494, 527, 676, 715, 725, 945],
  [52, 118, 142, 194, 348, 362, 409, 472, 495, 528, 677, 716, 726, 946], [53, 119, 143, 195, 349, 363, 410, 473, 496, 529, 678, 717, 727, 947],
  [54, 80, 144, 196, 350, 364, 411, 474, 497, 530, 679, 718, 728, 948], [55, 81, 145, 197, 351, 365, 412, 475, 498, 531, 640, 719, 729, 949],
  [56, 82, 146, 198, 352, 366, 413, 476, 499, 532, 641, 680, 730, 950], [57, 83, 147, 199, 353, 367, 414, 477, 500, 533, 642, 681, 731, 951],
  [58, 84, 148, 160, 354, 368, 415, 478, 501, 534, 643, 682, 732, 952], [59, 85, 149, 161, 355, 369, 416, 479, 502, 535, 644, 683, 733, 953],
  [60, 86, 150, 162, 356, 370, 417, 440, 503, 536, 645, 684, 734, 954], [61, 87, 151, 163, 357, 371, 418, 441, 504, 537, 646, 685, 735, 955],
  [62, 88, 152, 164, 358, 372, 419, 442, 505, 538, 647, 686, 736, 956], [63, 89, 153, 165, 359, 373, 420, 443, 506, 539, 648, 687, 737, 957],
  [64, 90, 154, 166, 320, 374, 421, 444, 507, 540, 649, 688, 738, 958], [65, 91, 155, 167, 321, 375, 422, 445, 508, 541, 650, 689, 739, 959]]

/-- The checks listed in the design file (designs/ldpc/wimax/960.720.a.txt:965-1204), columns counted from 0, sorted. -/
def wimax960Checks : Checks :=
  wimax960Checks1 ++ wimax960Checks2 ++ wimax960Checks3 ++ wimax960Checks4

/-- Certificate that the last 240 columns are invertible over the integers. Part 1. -/
def wimax960Cert1 : List (List (Int × Nat) × Nat) := [
  ([(-1, 19), (-1, 99), (-1, 179), (1, 59), (1, 139), (1, 219)], 19), ([(-1, 39), (-1, 119), (1, 79)], 159), ([(-1, 199), (1, 159), (1, 239)], 39),
  ([(-1, 19), (-1, 99), (1, 59)], 139), ([(-1, 18), (-1, 98), (-1, 178), (1, 58), (1, 138), (1, 218)], 18), ([(-1, 38), (-1, 118), (1, 78)], 158),
  ([(-1, 198), (1, 158), (1, 238)], 38), ([(-1, 18), (-1, 98), (1, 58)], 138), ([(-1, 17), (-1, 97), (-1, 177), (1, 57), (1, 137), (1, 217)], 17),
  ([(-1, 37), (-1, 117), (1, 77)], 157), ([(-1, 197), (1, 157), (1, 237)], 37), ([(-1, 17), (-1, 97), (1, 57)], 137),
  ([(-1, 16), (-1, 96), (-1, 176), (1, 56), (1, 136), (1, 216)], 16), ([(-1, 36), (-1, 116), (1, 76)], 156), ([(-1, 196), (1, 156), (1, 236)], 36),
  ([(-1, 16), (-1, 96), (1, 56)], 136), ([(-1, 15), (-1, 95), (-1, 175), (1, 55), (1, 135), (1, 215)], 15), ([(-1, 35), (-1, 115), (1, 75)], 155),
  ([(-1, 195), (1, 155), (1, 235)], 35), ([(-1, 15), (-1, 95), (1, 55)], 135), ([(-1, 14), (-1, 94), (-1, 174), (1, 54), (1, 134), (1, 214)], 14),
  ([(-1, 34), (-1, 114), (1, 74)], 154), ([(-1, 194), (1, 154), (1, 234)], 34), ([(-1, 14), (-1, 94), (1, 54)], 134),
  ([(-1, 13), (-1, 93), (-1, 173), (1, 53), (1, 133), (1, 213)], 13), ([(-1, 33), (-1, 113), (1, 73)], 153), ([(-1, 193), (1, 153), (1, 233)], 33),
  ([(-1, 13), (-1, 93), (1, 53)], 133), ([(-1, 12), (-1, 92), (-1, 172), (1, 52), (1, 132), (1, 212)], 12), ([(-1, 32), (-1, 112), (1, 72)], 152),
  ([(-1, 192), (1, 152), (1, 232)], 32), ([(-1, 12), (-1, 92), (1, 52)], 132), ([(-1, 11), (-1, 91), (-1, 171), (1, 51), (1, 131), (1, 211)], 11),
  ([(-1, 31), (-1, 111), (1, 71)], 151), ([(-1, 191), (1, 151), (1, 231)], 31), ([(-1, 11), (-1, 91), (1, 51)], 131),
  ([(-1, 10), (-1, 90), (-1, 170), (1, 50), (1, 130), (1, 210)], 10), ([(-1, 30), (-1, 110), (1, 70)], 150), ([(-1, 190), (1, 150), (1, 230)], 30),
  ([(-1, 10), (-1, 90), (1, 50)], 130), ([(-1, 9), (-1, 89), (-1, 169), (1, 49), (1, 129), (1, 209)], 9), ([(-1, 29), (-1, 109), (1, 69)], 149),
  ([(-1, 189), (1, 149), (1, 229)], 29), ([(-1, 9), (-1, 89), (1, 49)], 129), ([(-1, 8), (-1, 88), (-1, 168), (1, 48), (1, 128), (1, 208)], 8),
  ([(-1, 28), (-1, 108), (1, 68)], 148), ([(-1, 188), (1, 148), (1, 228)], 28), ([(-1, 8), (-1, 88), (1, 48)], 128),
  ([(-1, 7), (-1, 87), (-1, 167), (1, 47), (1, 127), (1, 207)], 7), ([(-1, 27), (-1, 107), (1, 67)], 147), ([(-1, 187), (1, 147), (1, 227)], 27),
  ([(-1, 7), (-1, 87), (1, 47)], 127), ([(-1, 6), (-1, 86), (-1, 166), (1, 46), (1, 126), (1, 206)], 6), ([(-1, 26), (-1, 106), (1, 66)], 146),
  ([(-1, 186), (1, 146), (1, 226)], 26), ([(-1, 6), (-1, 86), (1, 46)], 126), ([(-1, 5), (-1, 85), (-1, 165), (1, 45), (1, 125), (1, 205)], 5),
  ([(-1, 25), (-1, 105), (1, 65)], 145), ([(-1, 185), (1, 145), (1, 225)], 25), ([(-1, 5), (-1, 85), (1, 45)], 125)]

/-- Certificate that the last 240 columns are invertible over the integers. Part 2. -/
def wimax960Cert2 : List (List (Int × Nat) × Nat) := [
  ([(-1, 4), (-1, 84), (-1, 164), (1, 44), (1, 124), (1, 204)], 4), ([(-1, 24), (-1, 104), (1, 64)], 144), ([(-1, 184), (1, 144), (1, 224)], 24),
  ([(-1, 4), (-1, 84), (1, 44)], 124), ([(-1, 3), (-1, 83), (-1, 163), (1, 43), (1, 123), (1, 203)], 3), ([(-1, 23), (-1, 103), (1, 63)], 143),
  ([(-1, 183), (1, 143), (1, 223)], 23), ([(-1, 3), (-1, 83), (1, 43)], 123), ([(-1, 2), (-1, 82), (-1, 162), (1, 42), (1, 122), (1, 202)], 2),
  ([(-1, 22), (-1, 102), (1, 62)], 142), ([(-1, 182), (1, 142), (1, 222)], 22), ([(-1, 2), (-1, 82), (1, 42)], 122),
  ([(-1, 1), (-1, 81), (-1, 161), (1, 41), (1, 121), (1, 201)], 1), ([(-1, 21), (-1, 101), (1, 61)], 141), ([(-1, 181), (1, 141), (1, 221)], 21),
  ([(-1, 1), (-1, 81), (1, 41)], 121), ([(-1, 0), (-1, 80), (-1, 160), (1, 40), (1, 120), (1, 200)], 0), ([(-1, 20), (-1, 100), (1, 60)], 140),
  ([(-1, 180), (1, 140), (1, 220)], 20), ([(-1, 0), (-1, 80), (1, 40)], 120), ([(1, 239)], 239), ([(1, 238)], 238), ([(1, 237)], 237),
  ([(1, 236)], 236), ([(1, 235)], 235), ([(1, 234)], 234), ([(1, 233)], 233), ([(1, 232)], 232), ([(1, 231)], 231), ([(1, 230)], 230),
  ([(1, 229)], 229), ([(1, 228)], 228), ([(1, 227)], 227), ([(1, 226)], 226), ([(1, 225)], 225), ([(1, 224)], 224), ([(1, 223)], 223),
  ([(1, 222)], 222), ([(1, 221)], 221), ([(1, 220)], 220), ([(1, 219)], 219), ([(1, 218)], 218), ([(1, 217)], 217), ([(1, 216)], 216),
  ([(1, 215)], 215), ([(1, 214)], 214), ([(1, 213)], 213), ([(1, 212)], 212), ([(1, 211)], 211), ([(1, 210)], 210), ([(1, 209)], 209),
  ([(1, 208)], 208), ([(1, 207)], 207), ([(1, 206)], 206), ([(1, 205)], 205), ([(1, 204)], 204), ([(1, 203)], 203), ([(1, 202)], 202),
  ([(1, 201)], 201), ([(1, 200)], 200)]

/-- Certificate that the last 240 columns are invertible over the integers. Part 3. -/
def wimax960Cert3 : List (List (Int × Nat) × Nat) := [
  ([(1, 199)], 199), ([(1, 198)], 198), ([(1, 197)], 197), ([(1, 196)], 196), ([(1, 195)], 195), ([(1, 194)], 194), ([(1, 193)], 193),
  ([(1, 192)], 192), ([(1, 191)], 191), ([(1, 190)], 190), ([(1, 189)], 189), ([(1, 188)], 188), ([(1, 187)], 187), ([(1, 186)], 186),
  ([(1, 185)], 185), ([(1, 184)], 184), ([(1, 183)], 183), ([(1, 182)], 182), ([(1, 181)], 181), ([(1, 180)], 180), ([(1, 179)], 179),
  ([(1, 178)], 178), ([(1, 177)], 177), ([(1, 176)], 176), ([(1, 175)], 175), ([(1, 174)], 174), ([(1, 173)], 173), ([(1, 172)], 172),
  ([(1, 171)], 171), ([(1, 170)], 170), ([(1, 169)], 169), ([(1, 168)], 168), ([(1, 167)], 167), ([(1, 166)], 166), ([(1, 165)], 165),
  ([(1, 164)], 164), ([(1, 163)], 163), ([(1, 162)], 162), ([(1, 161)], 161), ([(1, 160)], 160), ([(1, 119)], 119), ([(1, 118)], 118),
  ([(1, 117)], 117), ([(1, 116)], 116), ([(1, 115)], 115), ([(1, 114)], 114), ([(1, 113)], 113), ([(1, 112)], 112), ([(1, 111)], 111),
  ([(1, 110)], 110), ([(1, 109)], 109), ([(1, 108)], 108), ([(1, 107)], 107), ([(1, 106)], 106), ([(1, 105)], 105), ([(1, 104)], 104),
  ([(1, 103)], 103), ([(1, 102)], 102), ([(1, 101)], 101), ([(1, 100)], 100)]

/-- Certificate that the last 240 columns are invertible over the integers. Part 4. -/
def wimax960Cert4 : List (List (Int × Nat) × Nat) := [
  ([(1, 99)], 99), ([(1, 98)], 98), ([(1, 97)], 97), ([(1, 96)], 96), ([(1, 95)], 95), ([(1, 94)], 94), ([(1, 93)], 93), ([(1, 92)], 92),
  ([(1, 91)], 91), ([(1, 90)], 90), ([(1, 89)], 89), ([(1, 88)], 88), ([(1, 87)], 87), ([(1, 86)], 86), ([(1, 85)], 85), ([(1, 84)], 84),
  ([(1, 83)], 83), ([(1, 82)], 82), ([(1, 81)], 81), ([(1, 80)], 80), ([(1, 39)], 79), ([(1, 38)], 78), ([(1, 37)], 77), ([(1, 36)], 76),
  ([(1, 35)], 75), ([(1, 34)], 74), ([(1, 33)], 73), ([(1, 32)], 72), ([(1, 31)], 71), ([(1, 30)], 70), ([(1, 29)], 69), ([(1, 28)], 68),
  ([(1, 27)], 67), ([(1, 26)], 66), ([(1, 25)], 65), ([(1, 24)], 64), ([(1, 23)], 63), ([(1, 22)], 62), ([(1, 21)], 61), ([(1, 20)], 60),
  ([(1, 19)], 59), ([(1, 18)], 58), ([(1, 17)], 57), ([(1, 16)], 56), ([(1, 15)], 55), ([(1, 14)], 54), ([(1, 13)], 53), ([(1, 12)], 52),
  ([(1, 11)], 51), ([(1, 10)], 50), ([(1, 9)], 49), ([(1, 8)], 48), ([(1, 7)], 47), ([(1, 6)], 46), ([(1, 5)], 45), ([(1, 4)], 44), ([(1, 3)], 43),
  ([(1, 2)], 42), ([(1, 1)], 41), ([(1, 0)], 40)]

/-- Certificate that the last 240 columns are invertible over the integers. -/
def wimax960Cert : List (List (Int × Nat) × Nat) :=
  wimax960Cert1 ++ wimax960Cert2 ++ wimax960Cert3 ++ wimax960Cert4

end Verif
