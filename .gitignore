.lake/
__pycache__/
*.olean
