import Verif.Lemmas.RowSpan
-- Generated by tools/gen_designs.py from /repo/commpy/channelcoding/designs/ldpc/gallager/96.3.963.txt
namespace Verif

/-- All characters of the design file (designs/ldpc/gallager/96.3.963.txt:1-149). -/
def gallager963Text : List Char := [
  '9', '6', ' ', '4', '8', '\n', '3', ' ', '6', '\n', '3', ' ', '3', ' ', '3', ' ', '3', ' ', '3', ' ', '3', ' ', '3', ' ', '3', ' ', '3', ' ', '3',
  ' ', '3', ' ', '3', ' ', '3', ' ', '3', ' ', '3', ' ', '3', ' ', '3', ' ', '3', ' ', '3', ' ', '3', ' ', '3', ' ', '3', ' ', '3', ' ', '3', ' ', '3',
  ' ', '3', ' ', '3', ' ', '3', ' ', '3', ' ', '3', ' ', '3', ' ', '3', ' ', '3', ' ', '3', ' ', '3', ' ', '3', ' ', '3', ' ', '3', ' ', '3', ' ', '3',
  ' ', '3', ' ', '3', ' ', '3', ' ', '3', ' ', '3', ' ', '3', ' ', '3', ' ', '3', ' ', '3', ' ', '3', ' ', '3', ' ', '3', ' ', '3', ' ', '3', ' ', '3',
  ' ', '3', ' ', '3', ' ', '3', ' ', '3', ' ', '3', ' ', '3', ' ', '3', ' ', '3', ' ', '3', ' ', '3', ' ', '3', ' ', '3', ' ', '3', ' ', '3', ' ', '3',
  ' ', '3', ' ', '3', ' ', '3', ' ', '3', ' ', '3', ' ', '3', ' ', '3', ' ', '3', ' ', '3', ' ', '3', ' ', '3', ' ', '3', ' ', '3', ' ', '3', ' ', '3',
  ' ', '3', ' ', '3', ' ', '3', ' ', '3', ' ', '3', ' ', '3', ' ', '3', ' ', '3', ' ', '3', ' ', '3', ' ', '3', ' ', '\n', '6', ' ', '6', ' ', '6',
  ' ', '6', ' ', '6', ' ', '6', ' ', '6', ' ', '6', ' ', '6', ' ', '6', ' ', '6', ' ', '6', ' ', '6', ' ', '6', ' ', '6', ' ', '6', ' ', '6', ' ', '6',
  ' ', '6', ' ', '6', ' ', '6', ' ', '6', ' ', '6', ' ', '6', ' ', '6', ' ', '6', ' ', '6', ' ', '6', ' ', '6', ' ', '6', ' ', '6', ' ', '6', ' ', '6',
  ' ', '6', ' ', '6', ' ', '6', ' ', '6', ' ', '6', ' ', '6', ' ', '6', ' ', '6', ' ', '6', ' ', '6', ' ', '6', ' ', '6', ' ', '6', ' ', '6', ' ', '6',
  ' ', '\n', '1', '0', '\t', '3', '0', '\t', '4', '0', '\n', '5', '\t', '3', '2', '\t', '4', '5', '\n', '1', '6', '\t', '1', '8', '\t', '3', '9', '\n',
  '1', '2', '\t', '2', '2', '\t', '3', '8', '\n', '1', '5', '\t', '1', '9', '\t', '4', '7', '\n', '2', '\t', '1', '7', '\t', '3', '4', '\n', '9', '\t',
  '2', '4', '\t', '4', '2', '\n', '1', '\t', '2', '9', '\t', '3', '3', '\n', '4', '\t', '2', '7', '\t', '3', '6', '\n', '3', '\t', '2', '6', '\t', '3',
  '5', '\n', '1', '1', '\t', '3', '1', '\t', '4', '3', '\n', '7', '\t', '2', '1', '\t', '4', '4', '\n', '8', '\t', '2', '0', '\t', '4', '8', '\n', '1',
  '4', '\t', '2', '3', '\t', '4', '6', '\n', '6', '\t', '2', '8', '\t', '3', '7', '\n', '1', '3', '\t', '2', '5', '\t', '4', '1', '\n', '1', '4', '\t',
  '3', '2', '\t', '4', '3', '\n', '5', '\t', '2', '3', '\t', '3', '7', '\n', '2', '\t', '3', '1', '\t', '3', '6', '\n', '1', '\t', '2', '8', '\t', '3',
  '4', '\n', '7', '\t', '2', '5', '\t', '4', '7', '\n', '1', '0', '\t', '2', '1', '\t', '3', '3', '\n', '1', '5', '\t', '3', '0', '\t', '3', '5', '\n',
  '1', '6', '\t', '2', '6', '\t', '4', '8', '\n', '3', '\t', '2', '2', '\t', '4', '6', '\n', '1', '2', '\t', '2', '0', '\t', '4', '1', '\n', '8', '\t',
  '1', '8', '\t', '3', '8', '\n', '4', '\t', '1', '9', '\t', '4', '5', '\n', '6', '\t', '2', '4', '\t', '4', '0', '\n', '9', '\t', '2', '7', '\t', '3',
  '9', '\n', '1', '3', '\t', '1', '7', '\t', '4', '2', '\n', '1', '1', '\t', '2', '9', '\t', '4', '4', '\n', '8', '\t', '2', '4', '\t', '3', '4', '\n',
  '6', '\t', '2', '5', '\t', '3', '6', '\n', '9', '\t', '1', '9', '\t', '4', '3', '\n', '1', '\t', '2', '0', '\t', '4', '6', '\n', '1', '4', '\t', '2',
  '7', '\t', '4', '2', '\n', '7', '\t', '2', '2', '\t', '3', '9', '\n', '1', '3', '\t', '1', '8', '\t', '3', '5', '\n', '4', '\t', '2', '6', '\t', '4',
  '0', '\n', '1', '6', '\t', '2', '9', '\t', '3', '8', '\n', '1', '5', '\t', '2', '1', '\t', '4', '8', '\n', '1', '1', '\t', '2', '3', '\t', '4', '5',
  '\n', '3', '\t', '1', '7', '\t', '4', '7', '\n', '5', '\t', '2', '8', '\t', '4', '4', '\n', '1', '2', '\t', '3', '2', '\t', '3', '3', '\n', '2',
  '\t', '3', '0', '\t', '4', '1', '\n', '1', '0', '\t', '3', '1', '\t', '3', '7', '\n', '1', '0', '\t', '1', '8', '\t', '3', '6', '\n', '4', '\t', '2',
  '3', '\t', '4', '4', '\n', '9', '\t', '2', '9', '\t', '4', '0', '\n', '2', '\t', '2', '7', '\t', '3', '8', '\n', '8', '\t', '3', '0', '\t', '4', '2',
  '\n', '1', '2', '\t', '2', '8', '\t', '4', '3', '\n', '1', '1', '\t', '2', '0', '\t', '3', '7', '\n', '1', '\t', '1', '9', '\t', '3', '5', '\n', '1',
  '5', '\t', '3', '1', '\t', '3', '9', '\n', '1', '6', '\t', '3', '2', '\t', '4', '1', '\n', '5', '\t', '2', '6', '\t', '3', '3', '\n', '3', '\t', '2',
  '5', '\t', '4', '5', '\n', '1', '3', '\t', '2', '1', '\t', '3', '4', '\n', '1', '4', '\t', '2', '4', '\t', '4', '8', '\n', '7', '\t', '1', '7', '\t',
  '4', '6', '\n', '6', '\t', '2', '2', '\t', '4', '7', '\n', '7', '\t', '2', '7', '\t', '4', '0', '\n', '1', '1', '\t', '1', '8', '\t', '3', '3', '\n',
  '2', '\t', '3', '2', '\t', '3', '5', '\n', '1', '0', '\t', '2', '8', '\t', '4', '7', '\n', '5', '\t', '2', '4', '\t', '4', '1', '\n', '1', '2', '\t',
  '2', '5', '\t', '3', '7', '\n', '3', '\t', '1', '9', '\t', '3', '9', '\n', '1', '4', '\t', '3', '1', '\t', '4', '4', '\n', '1', '6', '\t', '3', '0',
  '\t', '3', '4', '\n', '1', '3', '\t', '2', '0', '\t', '3', '8', '\n', '9', '\t', '2', '2', '\t', '3', '6', '\n', '6', '\t', '1', '7', '\t', '4', '5',
  '\n', '4', '\t', '2', '1', '\t', '4', '2', '\n', '1', '5', '\t', '2', '9', '\t', '4', '6', '\n', '8', '\t', '2', '6', '\t', '4', '3', '\n', '1',
  '\t', '2', '3', '\t', '4', '8', '\n', '1', '\t', '2', '5', '\t', '4', '2', '\n', '1', '5', '\t', '2', '2', '\t', '4', '0', '\n', '8', '\t', '2', '1',
  '\t', '4', '1', '\n', '9', '\t', '1', '8', '\t', '4', '7', '\n', '6', '\t', '2', '7', '\t', '4', '3', '\n', '1', '1', '\t', '3', '0', '\t', '4', '6',
  '\n', '7', '\t', '3', '1', '\t', '3', '5', '\n', '5', '\t', '2', '0', '\t', '3', '6', '\n', '1', '4', '\t', '1', '7', '\t', '3', '8', '\n', '1', '6',
  '\t', '2', '8', '\t', '4', '5', '\n', '4', '\t', '3', '2', '\t', '3', '7', '\n', '1', '3', '\t', '2', '3', '\t', '3', '3', '\n', '1', '2', '\t', '2',
  '6', '\t', '4', '4', '\n', '3', '\t', '2', '9', '\t', '4', '8', '\n', '2', '\t', '2', '4', '\t', '3', '9', '\n', '1', '0', '\t', '1', '9', '\t', '3',
  '4', '\n', '8', '\t', '2', '0', '\t', '3', '6', '\t', '5', '6', '\t', '8', '0', '\t', '8', '1', '\n', '6', '\t', '1', '9', '\t', '4', '7', '\t', '5',
  '2', '\t', '6', '7', '\t', '9', '5', '\n', '1', '0', '\t', '2', '5', '\t', '4', '4', '\t', '6', '0', '\t', '7', '1', '\t', '9', '4', '\n', '9', '\t',
  '2', '8', '\t', '4', '0', '\t', '5', '0', '\t', '7', '7', '\t', '9', '1', '\n', '2', '\t', '1', '8', '\t', '4', '5', '\t', '5', '9', '\t', '6', '9',
  '\t', '8', '8', '\n', '1', '5', '\t', '2', '9', '\t', '3', '4', '\t', '6', '4', '\t', '7', '6', '\t', '8', '5', '\n', '1', '2', '\t', '2', '1', '\t',
  '3', '8', '\t', '6', '3', '\t', '6', '5', '\t', '8', '7', '\n', '1', '3', '\t', '2', '7', '\t', '3', '3', '\t', '5', '3', '\t', '7', '9', '\t', '8',
  '3', '\n', '7', '\t', '3', '0', '\t', '3', '5', '\t', '5', '1', '\t', '7', '5', '\t', '8', '4', '\n', '1', '\t', '2', '2', '\t', '4', '8', '\t', '4',
  '9', '\t', '6', '8', '\t', '9', '6', '\n', '1', '1', '\t', '3', '2', '\t', '4', '3', '\t', '5', '5', '\t', '6', '6', '\t', '8', '6', '\n', '4', '\t',
  '2', '6', '\t', '4', '6', '\t', '5', '4', '\t', '7', '0', '\t', '9', '3', '\n', '1', '6', '\t', '3', '1', '\t', '3', '9', '\t', '6', '1', '\t', '7',
  '4', '\t', '9', '2', '\n', '1', '4', '\t', '1', '7', '\t', '3', '7', '\t', '6', '2', '\t', '7', '2', '\t', '8', '9', '\n', '5', '\t', '2', '3', '\t',
  '4', '2', '\t', '5', '7', '\t', '7', '8', '\t', '8', '2', '\n', '3', '\t', '2', '4', '\t', '4', '1', '\t', '5', '8', '\t', '7', '3', '\t', '9', '0',
  '\n', '6', '\t', '3', '1', '\t', '4', '4', '\t', '6', '3', '\t', '7', '6', '\t', '8', '9', '\n', '3', '\t', '2', '7', '\t', '3', '9', '\t', '4', '9',
  '\t', '6', '6', '\t', '8', '4', '\n', '5', '\t', '2', '8', '\t', '3', '5', '\t', '5', '6', '\t', '7', '1', '\t', '9', '6', '\n', '1', '3', '\t', '2',
  '6', '\t', '3', '6', '\t', '5', '5', '\t', '7', '4', '\t', '8', '8', '\n', '1', '2', '\t', '2', '2', '\t', '4', '2', '\t', '6', '1', '\t', '7', '7',
  '\t', '8', '3', '\n', '4', '\t', '2', '5', '\t', '3', '8', '\t', '6', '4', '\t', '7', '5', '\t', '8', '2', '\n', '1', '4', '\t', '1', '8', '\t', '4',
  '3', '\t', '5', '0', '\t', '8', '0', '\t', '9', '2', '\n', '7', '\t', '2', '9', '\t', '3', '3', '\t', '6', '2', '\t', '6', '9', '\t', '9', '5', '\n',
  '1', '6', '\t', '2', '1', '\t', '3', '4', '\t', '6', '0', '\t', '7', '0', '\t', '8', '1', '\n', '1', '0', '\t', '2', '4', '\t', '4', '0', '\t', '5',
  '9', '\t', '7', '9', '\t', '9', '3', '\n', '9', '\t', '3', '0', '\t', '3', '7', '\t', '5', '2', '\t', '6', '5', '\t', '8', '5', '\n', '1', '5', '\t',
  '2', '0', '\t', '4', '5', '\t', '5', '4', '\t', '6', '8', '\t', '9', '0', '\n', '8', '\t', '3', '2', '\t', '4', '1', '\t', '5', '1', '\t', '7', '8',
  '\t', '9', '4', '\n', '1', '\t', '2', '3', '\t', '4', '7', '\t', '5', '3', '\t', '7', '3', '\t', '8', '6', '\n', '1', '1', '\t', '1', '9', '\t', '4',
  '8', '\t', '5', '7', '\t', '7', '2', '\t', '8', '7', '\n', '2', '\t', '1', '7', '\t', '4', '6', '\t', '5', '8', '\t', '6', '7', '\t', '9', '1', '\n',
  '8', '\t', '2', '2', '\t', '4', '6', '\t', '5', '9', '\t', '6', '6', '\t', '9', '2', '\n', '6', '\t', '2', '0', '\t', '3', '3', '\t', '6', '1', '\t',
  '7', '3', '\t', '9', '6', '\n', '1', '0', '\t', '2', '3', '\t', '3', '9', '\t', '5', '6', '\t', '6', '7', '\t', '8', '7', '\n', '9', '\t', '1', '9',
  '\t', '3', '4', '\t', '4', '9', '\t', '7', '5', '\t', '8', '8', '\n', '1', '5', '\t', '1', '8', '\t', '4', '8', '\t', '5', '5', '\t', '7', '0', '\t',
  '9', '1', '\n', '4', '\t', '2', '7', '\t', '4', '1', '\t', '5', '2', '\t', '7', '4', '\t', '8', '9', '\n', '3', '\t', '3', '0', '\t', '3', '8', '\t',
  '5', '7', '\t', '7', '1', '\t', '9', '5', '\n', '1', '\t', '2', '9', '\t', '4', '0', '\t', '5', '1', '\t', '6', '5', '\t', '8', '2', '\n', '1', '6',
  '\t', '2', '6', '\t', '4', '7', '\t', '5', '8', '\t', '6', '9', '\t', '8', '3', '\n', '7', '\t', '3', '1', '\t', '3', '7', '\t', '5', '3', '\t', '7',
  '7', '\t', '8', '1', '\n', '1', '1', '\t', '1', '7', '\t', '3', '5', '\t', '5', '4', '\t', '7', '9', '\t', '8', '5', '\n', '1', '2', '\t', '3', '2',
  '\t', '4', '5', '\t', '5', '0', '\t', '7', '2', '\t', '9', '3', '\n', '2', '\t', '2', '8', '\t', '4', '3', '\t', '6', '0', '\t', '7', '6', '\t', '9',
  '0', '\n', '1', '4', '\t', '2', '5', '\t', '3', '6', '\t', '6', '3', '\t', '7', '8', '\t', '8', '6', '\n', '5', '\t', '2', '1', '\t', '4', '4', '\t',
  '6', '4', '\t', '6', '8', '\t', '8', '4', '\n', '1', '3', '\t', '2', '4', '\t', '4', '2', '\t', '6', '2', '\t', '8', '0', '\t', '9', '4', '\n']

/-- The checks listed in the design file (designs/ldpc/gallager/96.3.963.txt:101-148), columns counted from 0, sorted. -/
def gallager963Checks : Checks := [
  [7, 19, 35, 55, 79, 80], [5, 18, 46, 51, 66, 94], [9, 24, 43, 59, 70, 93], [8, 27, 39, 49, 76, 90], [1, 17, 44, 58, 68, 87],
  [14, 28, 33, 63, 75, 84], [11, 20, 37, 62, 64, 86], [12, 26, 32, 52, 78, 82], [6, 29, 34, 50, 74, 83], [0, 21, 47, 48, 67, 95],
  [10, 31, 42, 54, 65, 85], [3, 25, 45, 53, 69, 92], [15, 30, 38, 60, 73, 91], [13, 16, 36, 61, 71, 88], [4, 22, 41, 56, 77, 81],
  [2, 23, 40, 57, 72, 89], [5, 30, 43, 62, 75, 88], [2, 26, 38, 48, 65, 83], [4, 27, 34, 55, 70, 95], [12, 25, 35, 54, 73, 87],
  [11, 21, 41, 60, 76, 82], [3, 24, 37, 63, 74, 81], [13, 17, 42, 49, 79, 91], [6, 28, 32, 61, 68, 94], [15, 20, 33, 59, 69, 80],
  [9, 23, 39, 58, 78, 92], [8, 29, 36, 51, 64, 84], [14, 19, 44, 53, 67, 89], [7, 31, 40, 50, 77, 93], [0, 22, 46, 52, 72, 85],
  [10, 18, 47, 56, 71, 86], [1, 16, 45, 57, 66, 90], [7, 21, 45, 58, 65, 91], [5, 19, 32, 60, 72, 95], [9, 22, 38, 55, 66, 86],
  [8, 18, 33, 48, 74, 87], [14, 17, 47, 54, 69, 90], [3, 26, 40, 51, 73, 88], [2, 29, 37, 56, 70, 94], [0, 28, 39, 50, 64, 81],
  [15, 25, 46, 57, 68, 82], [6, 30, 36, 52, 76, 80], [10, 16, 34, 53, 78, 84], [11, 31, 44, 49, 71, 92], [1, 27, 42, 59, 75, 89],
  [13, 24, 35, 62, 77, 85], [4, 20, 43, 63, 67, 83], [12, 23, 41, 61, 79, 93]]

/-- A vector that the last 48 columns map to zero. -/
def gallager963Null : List Int := [
  -1, -1, -1, -1, -1, -1, -1, -1, -1, -1, -1, -1, -1, -1, -1, -1, 1, 1, 1, 1, 1, 1, 1, 1, 1, 1, 1, 1, 1, 1, 1, 1, 0, 0, 0, 0, 0, 0, 0, 0, 0, 0, 0, 0,
  0, 0, 0, 0]

end Verif
